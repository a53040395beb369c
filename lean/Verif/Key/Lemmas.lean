import Verif.Key.Model

/-! Helper lemmas about the key model (integers, escaping, lengths, UTF-8). -/

namespace Bonsai

/-! ## Big-endian integers -/

theorem pow256 (w : Nat) : 2 ^ (8 * w) = 256 ^ w := by
  rw [Nat.pow_mul]

theorem toBE_length (w n : Nat) : (toBE w n).length = w := by
  induction w generalizing n with
  | zero => rfl
  | succ w ih => simp [toBE, ih]

theorem fromBE_lt (b : Bytes) : fromBE b < 256 ^ b.length := by
  induction b with
  | nil => simp [fromBE]
  | cons x xs ih =>
    have hx := x.toNat_lt
    simp only [fromBE, List.length_cons, Nat.pow_succ]
    have : x.toNat * 256 ^ xs.length ≤ 255 * 256 ^ xs.length := Nat.mul_le_mul_right _ (by omega)
    omega

theorem toNat_ofNat8 {n : Nat} (h : n < 256) : (UInt8.ofNat n).toNat = n := by
  simp [UInt8.toNat_ofNat', Nat.mod_eq_of_lt h]

theorem div_lt_256 {w n : Nat} (h : n < 256 ^ (w + 1)) : n / 256 ^ w < 256 := by
  rw [Nat.div_lt_iff_lt_mul (Nat.pow_pos (by decide))]
  rw [Nat.pow_succ] at h; omega

theorem fromBE_toBE {w n : Nat} (h : n < 256 ^ w) : fromBE (toBE w n) = n := by
  induction w generalizing n with
  | zero => simp at h; simp [toBE, fromBE, h]
  | succ w ih =>
    have hp : 0 < 256 ^ w := Nat.pow_pos (by decide)
    simp only [toBE, fromBE, toBE_length, toNat_ofNat8 (div_lt_256 h), ih (Nat.mod_lt _ hp)]
    exact Nat.div_add_mod' n (256 ^ w)

theorem toBE_fromBE (b : Bytes) : toBE b.length (fromBE b) = b := by
  induction b with
  | nil => rfl
  | cons x xs ih =>
    have hp : 0 < 256 ^ xs.length := Nat.pow_pos (by decide)
    have hl := fromBE_lt xs
    simp only [List.length_cons, toBE, fromBE]
    rw [Nat.mul_comm, Nat.mul_add_div hp, Nat.div_eq_of_lt hl, Nat.mul_add_mod,
      Nat.mod_eq_of_lt hl, ih]
    simp

theorem toBE_lt_iff {w n m : Nat} (hn : n < 256 ^ w) (hm : m < 256 ^ w) :
    toBE w n < toBE w m ↔ n < m := by
  induction w generalizing n m with
  | zero => simp at hn hm; simp [toBE, hn, hm]
  | succ w ih =>
    have hp : 0 < 256 ^ w := Nat.pow_pos (by decide)
    simp only [toBE, List.cons_lt_cons_iff, UInt8.lt_iff_toNat_lt, ← UInt8.toNat_inj,
      toNat_ofNat8 (div_lt_256 hn), toNat_ofNat8 (div_lt_256 hm)]
    rw [ih (Nat.mod_lt _ hp) (Nat.mod_lt _ hp)]
    have e1 := Nat.div_add_mod' n (256 ^ w)
    have e2 := Nat.div_add_mod' m (256 ^ w)
    have l1 := Nat.mod_lt n hp
    have l2 := Nat.mod_lt m hp
    generalize hP : 256 ^ w = P at *
    generalize n / P = q1 at *
    generalize m / P = q2 at *
    generalize n % P = r1 at *
    generalize m % P = r2 at *
    subst e1 e2
    constructor
    · rintro (h | ⟨rfl, h⟩)
      · have : (q1 + 1) * P ≤ q2 * P := Nat.mul_le_mul_right _ h
        rw [Nat.add_mul] at this; omega
      · omega
    · intro h
      rcases Nat.lt_trichotomy q1 q2 with hq | hq | hq
      · exact .inl hq
      · subst hq; exact .inr ⟨rfl, by omega⟩
      · have : (q2 + 1) * P ≤ q1 * P := Nat.mul_le_mul_right _ hq
        rw [Nat.add_mul] at this; omega

theorem primEnc_length {w : Nat} (v : BitVec (8 * w)) : (primEnc v).length = w := toBE_length _ _

theorem toNat_lt256 {w : Nat} (v : BitVec (8 * w)) : v.toNat < 256 ^ w := by
  have := v.isLt; rwa [pow256] at this

theorem primDec_primEnc {w : Nat} (v : BitVec (8 * w)) : primDec w (primEnc v) = .ok v := by
  rw [primDec, if_pos (primEnc_length v), primEnc, fromBE_toBE (toNat_lt256 v)]
  simp

theorem primEnc_lt_iff {w : Nat} (a b : BitVec (8 * w)) :
    primEnc a < primEnc b ↔ a.toNat < b.toNat :=
  toBE_lt_iff (toNat_lt256 a) (toNat_lt256 b)

theorem primDec_of_length {w : Nat} {b : Bytes} (h : b.length = w) :
    ∃ v, primDec w b = .ok v ∧ primEnc v = b := by
  refine ⟨_, by rw [primDec, if_pos h], ?_⟩
  subst h
  have := fromBE_lt b
  rw [primEnc, BitVec.toNat_ofNat, pow256, Nat.mod_eq_of_lt this, toBE_fromBE]

/-! ## Escaping -/

theorem unescape_escape (b : Bytes) : unescapeNulls (escapeNulls b) = .ok b := by
  induction b with
  | nil => rfl
  | cons x xs ih =>
    by_cases hx : x = 0
    · subst hx
      simp [escapeNulls, unescapeNulls, ih]
    · simp only [escapeNulls, hx, if_false]
      cases hxs : escapeNulls xs with
      | nil =>
        rw [hxs] at ih
        simp [unescapeNulls] at ih
        simp [unescapeNulls, hx, ← ih]
      | cons y ys =>
        rw [hxs] at ih
        simp [unescapeNulls, hx, ih]

theorem escape_length (b : Bytes) : (escapeNulls b).length = b.length + b.count 0 := by
  induction b with
  | nil => rfl
  | cons x xs ih =>
    by_cases hx : x = 0 <;> simp [escapeNulls, hx, ih] <;> omega

theorem escape_of_no_null {b : Bytes} (h : (0 : UInt8) ∉ b) : escapeNulls b = b := by
  induction b with
  | nil => rfl
  | cons x xs ih =>
    simp at h
    simp [escapeNulls, Ne.symm h.1, ih h.2]

/-! ## Field lengths -/

theorem readLen_lenBytes {l : Nat} (h : l ≤ 65535) (rest : Bytes) :
    readLen ((lenBytes l).reverse ++ rest) 0 0 = .ok (l, (lenBytes l).length) := by
  unfold lenBytes
  split
  · have : (UInt8.ofNat l).toNat = l := toNat_ofNat8 (by omega)
    simp [readLen, this, show l < 128 by omega, Nat.mod_eq_of_lt (show l < 128 by omega),
      Nat.mod_eq_of_lt (show l < 18446744073709551616 by omega)]
  · split
    · have h1 : (UInt8.ofNat (l / 128)).toNat = l / 128 := toNat_ofNat8 (by omega)
      have h2 : (UInt8.ofNat (l % 128 + 128)).toNat = l % 128 + 128 := toNat_ofNat8 (by omega)
      generalize UInt8.ofNat (l / 128) = x at h1
      generalize UInt8.ofNat (l % 128 + 128) = y at h2
      simp only [List.reverse_cons, List.reverse_nil, List.nil_append, List.cons_append, readLen,
        h1, h2]
      rw [if_neg (by omega), if_neg (by omega), if_neg (by omega), if_pos (by omega)]
      congr 2; omega
    · have h1 : (UInt8.ofNat (l / 16384)).toNat = l / 16384 := toNat_ofNat8 (by omega)
      have h2 : (UInt8.ofNat (l % 128 + 128)).toNat = l % 128 + 128 := toNat_ofNat8 (by omega)
      have h3 : (UInt8.ofNat (l / 128 % 128 + 128)).toNat = l / 128 % 128 + 128 :=
        toNat_ofNat8 (by omega)
      generalize UInt8.ofNat (l / 16384) = x at h1
      generalize UInt8.ofNat (l % 128 + 128) = y at h2
      generalize UInt8.ofNat (l / 128 % 128 + 128) = z at h3
      simp only [List.reverse_cons, List.reverse_nil, List.nil_append, List.cons_append, readLen,
        h1, h2, h3]
      rw [if_neg (by omega), if_neg (by omega), if_neg (by omega), if_neg (by omega),
        if_neg (by omega), if_pos (by omega)]
      congr 2; omega

theorem lenBytes_length_pos (l : Nat) : 0 < (lenBytes l).length := by
  unfold lenBytes; split
  · simp
  · split <;> simp

end Bonsai
