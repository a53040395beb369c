import Verif.Key.Props

/-!
# C03, C05 – totality, declared lengths, and no unread bytes

Statements added after testing the theorems of `Props.lean` against wrong programs: an encoder that
refuses values, a wrong declared `LENGTH`, and a decoder that ignores trailing bytes.
-/

namespace Bonsai

/-- Every value of the type can be encoded. -/
def AlwaysEncodes (k : KeyTy) : Prop := ∀ v, ∃ b, k.enc v = some b

/-- **C03.** Encoding a primitive key never fails; an option or result fails only if its content
does; an enum exactly as the composite of its discriminant and its variant's fields. -/
theorem C03_encoding_succeeds :
    (∀ w, AlwaysEncodes (uintKey w) ∧ AlwaysEncodes (intKey w) ∧ AlwaysEncodes (nonZeroKey w) ∧
      AlwaysEncodes (nonZeroIntKey w) ∧ AlwaysEncodes (arrayKey w)) ∧
    (AlwaysEncodes unitKey ∧ AlwaysEncodes boolKey ∧ AlwaysEncodes bytesKey ∧ AlwaysEncodes stringKey) ∧
    (∀ (α : Type) (c : Varint α) (lt : α → α → Prop), AlwaysEncodes (varintKey c lt)) ∧
    (∀ k, (∃ b, (optionKey k).enc none = some b) ∧ ∀ v, (optionKey k).enc (some v) = none ↔ k.enc v = none) ∧
    (∀ k e, (∀ v, (resultKey k e).enc (.ok v) = none ↔ k.enc v = none) ∧
      ∀ v, (resultKey k e).enc (.error v) = none ↔ e.enc v = none) ∧
    (∀ (m : NullMode) (d : EnumDesc) [DecidableEq d.repr.T] (i : Fin d.n) (v : Tuple (d.fields i)),
      (enumKey m d).enc ⟨i, v⟩ = none ↔
        ∃ f ∈ (⟨d.repr, d.disc i⟩ : (k : KeyTy) × k.T) :: fieldsOf (d.fields i) v,
          f.1.enc f.2 = none ∨ ∃ b, f.1.enc f.2 = some b ∧ f.1.len = none ∧
            ((m = .deny ∧ (0 : UInt8) ∈ b) ∨ 65535 < storedLength m b)) ∧
    (∀ (d : EnumDesc) [DecidableEq d.repr.T] (i : Fin d.n),
      (unitEnumKey d).enc i = none ↔ d.repr.enc (d.disc i) = none) := by
  refine ⟨fun w => ⟨fun v => ⟨_, rfl⟩, fun v => ⟨_, rfl⟩, fun v => ⟨_, rfl⟩, fun v => ⟨_, rfl⟩, fun v => ⟨_, rfl⟩⟩,
    ⟨fun v => ⟨_, rfl⟩, fun v => ⟨_, rfl⟩, fun v => ⟨_, rfl⟩, fun v => ⟨_, rfl⟩⟩, fun _ _ _ v => ⟨_, rfl⟩, ?_, ?_, ?_, ?_⟩
  · intro k
    refine ⟨⟨_, rfl⟩, fun v => ?_⟩
    show (k.enc v).map _ = none ↔ _
    rw [Option.map_eq_none_iff]
  · intro k e
    refine ⟨fun v => ?_, fun v => ?_⟩
    · show (k.enc v).map _ = none ↔ _
      rw [Option.map_eq_none_iff]
    · show (e.enc v).map _ = none ↔ _
      rw [Option.map_eq_none_iff]
  · intro m d _ i v
    exact C05_encoding_failure (m := m) (ks := d.repr :: d.fields i) (d.disc i, v)
  · intro d _ i
    exact Iff.rfl

/-- **C01–C05.** Encodings have the declared `LENGTH`: primitives, and tuples and fieldless enums
whose parts do. -/
theorem C03_declared_length :
    (∀ w, HonestLen (uintKey w) ∧ HonestLen (intKey w) ∧ HonestLen (nonZeroKey w) ∧
      HonestLen (nonZeroIntKey w) ∧ HonestLen (arrayKey w) ∧
      (uintKey w).len = some w ∧ (intKey w).len = some w ∧ (nonZeroKey w).len = some w ∧
      (nonZeroIntKey w).len = some w ∧ (arrayKey w).len = some w) ∧
    (HonestLen unitKey ∧ HonestLen boolKey) ∧
    (∀ ks : List KeyTy, (∀ k ∈ ks, HonestLen k) → HonestLen (tupleKey ks)) ∧
    (∀ ks : List KeyTy, (∀ k ∈ ks, k.len ≠ none) → (tupleKey ks).len ≠ none) ∧
    (∀ (d : EnumDesc) [DecidableEq d.repr.T], HonestLen d.repr → HonestLen (unitEnumKey d)) := by
  refine ⟨fun w => ⟨uint_honest w, int_honest w, nonZero_honest w, nonZeroInt_honest w, array_honest w,
    rfl, rfl, rfl, rfl, rfl⟩, ⟨unit_honest, bool_honest⟩, fun ks h => tuple_honest h, ?_,
    fun d _ h => unitEnum_honest h⟩
  intro ks
  induction ks with
  | nil => intro _ h; cases h
  | cons k ks ih =>
    intro h
    have h1 := h k (by simp)
    have h2 := ih (fun k hk => h k (by simp [hk]))
    show sumLen (k :: ks) ≠ none
    simp only [sumLen]
    change sumLen ks ≠ none at h2
    cases hk : k.len with
    | none => exact absurd hk h1
    | some a =>
      cases hs : sumLen ks with
      | none => exact absurd hs h2
      | some b => simp

/-! ## No unread bytes -/

/-- The number spelled by a length suffix: seven bits per byte, read from the last byte backwards;
(`usize` keeps the low 64 bits). -/
def spelled : Bytes → Nat
  | [] => 0
  | b :: bs => b.toNat % 128 + 128 * spelled bs

/-- What one field occupies: its own bytes, and its length suffix. -/
def FieldBytes (k : KeyTy) (p : Bytes × Bytes) : Prop :=
  match k.len with
  | some n => p.1.length = n ∧ p.2 = []
  | none => p.2 ≠ [] ∧ p.1.length = spelled p.2.reverse % 2 ^ 64 + 1

/-- `p` lists what the fields occupy, and together that is all of `b`: the fields in order, then the
length suffixes in reverse order. -/
def Occupies : List KeyTy → List (Bytes × Bytes) → Prop
  | [], [] => True
  | k :: ks, p :: ps => FieldBytes k p ∧ Occupies ks ps
  | _, _ => False

theorem readLen_spec {bs : Bytes} {i acc l used : Nat} (hacc : acc < 2 ^ (i * 7)) (ha64 : acc < 2 ^ 64)
    (h : readLen bs i acc = .ok (l, used)) :
    ∃ n, used = i + n ∧ 0 < n ∧ n ≤ bs.length ∧ l < 2 ^ 64 ∧
      l % 2 ^ 64 = (acc + 2 ^ (i * 7) * spelled (bs.take n)) % 2 ^ 64 := by
  induction bs generalizing i acc with
  | nil => cases h
  | cons b bs ih =>
    simp only [readLen] at h
    split at h
    · cases h
    · rename_i hi
      have hb : b.toNat % 128 < 128 := Nat.mod_lt _ (by decide)
      generalize hc : b.toNat % 128 = c at *
      have hx : acc + c * 2 ^ (i * 7) % 2 ^ 64 < 2 ^ 64 ∧ acc + c * 2 ^ (i * 7) % 2 ^ 64 < 2 ^ ((i + 1) * 7) := by
        have hi' : i ≤ 9 := by omega
        have : i = 0 ∨ i = 1 ∨ i = 2 ∨ i = 3 ∨ i = 4 ∨ i = 5 ∨ i = 6 ∨ i = 7 ∨ i = 8 ∨ i = 9 := by omega
        rcases this with rfl | rfl | rfl | rfl | rfl | rfl | rfl | rfl | rfl | rfl <;>
          simp only [Nat.reduceMul, Nat.reduceAdd, Nat.reducePow] at hacc ⊢ <;> omega
      split at h
      · cases h
        refine ⟨1, rfl, by omega, by simp, hx.1, ?_⟩
        simp only [List.take_succ_cons, List.take_zero, spelled, hc, Nat.mul_zero, Nat.add_zero]
        rw [Nat.mul_comm c]
        simp [Nat.add_mod]
      · obtain ⟨n, h1, h2, h3, h4, h5⟩ := ih hx.2 hx.1 h
        refine ⟨n + 1, by omega, by omega, by simp; omega, h4, ?_⟩
        rw [h5]
        simp only [List.take_succ_cons, spelled, hc]
        have : 2 ^ ((i + 1) * 7) = 128 * 2 ^ (i * 7) := by
          rw [Nat.add_mul, Nat.pow_add]; omega
        rw [this, Nat.mul_add, ← Nat.mul_assoc, Nat.mul_comm c, Nat.mul_comm (2 ^ (i * 7)) 128]
        generalize 2 ^ (i * 7) * c = x
        generalize 128 * 2 ^ (i * 7) * spelled (List.take n bs) = y
        omega

theorem slice_split {bytes : Bytes} {a b c : Nat} (h1 : a ≤ b) (h2 : b ≤ c) :
    slice bytes a c = slice bytes a b ++ slice bytes b c := by
  have h : c - a = (b - a) + (c - b) := by omega
  simp only [slice, h, List.take_add, List.drop_drop]
  have : a + (b - a) = b := by omega
  rw [this]

theorem slice_length {bytes : Bytes} {a b : Nat} (h1 : a ≤ b) (h2 : b ≤ bytes.length) :
    (slice bytes a b).length = b - a := by
  simp [slice]; omega

theorem decodeFields_occupies {m : NullMode} {ks : List KeyTy} {bytes : Bytes} {d d' : Dec} {v : Tuple ks}
    (hs : d.stop ≤ bytes.length) (h : decodeFields m ks bytes d = .ok (v, d')) (he : d'.offset = d'.stop) :
    d.offset ≤ d.stop ∧ ∃ ps, Occupies ks ps ∧
      slice bytes d.offset d.stop = (ps.map (·.1)).flatten ++ (ps.reverse.map (·.2)).flatten := by
  induction ks generalizing d with
  | nil =>
    cases h
    refine ⟨by omega, [], trivial, ?_⟩
    rw [he]; simp [slice]
  | cons k ks ih =>
    simp only [decodeFields] at h
    cases hf : decodeField m k bytes d with
    | err => rw [hf] at h; cases h
    | panic => rw [hf] at h; cases h
    | ok p =>
      obtain ⟨x, d2⟩ := p
      rw [hf] at h
      simp only [Res.bind_ok] at h
      cases hr : decodeFields m ks bytes d2 with
      | err => rw [hr] at h; cases h
      | panic => rw [hr] at h; cases h
      | ok q =>
        obtain ⟨xs, d3⟩ := q
        rw [hr] at h
        have hd : d3 = d' := by
          have := h; simp only [Res.map] at this; cases this; rfl
        subst hd
        simp only [decodeField, fieldLen] at hf
        cases hk : k.len with
        | some n =>
          simp only [hk, Res.bind_ok] at hf
          split at hf
          · cases hf
          · split at hf
            · rename_i hle
              cases hv : k.dec (slice bytes d.offset (d.offset + n)) with
              | err => rw [hv] at hf; cases hf
              | panic => rw [hv] at hf; cases hf
              | ok w =>
                rw [hv] at hf
                have hd2 : d2 = { d with offset := d.offset + n } := by
                  simp only [Res.map] at hf; cases hf; rfl
                subst hd2
                obtain ⟨h1, ps, h2, h3⟩ := ih (d := { offset := d.offset + n, stop := d.stop }) hs hr
                simp only at h1 h3
                refine ⟨by omega, (slice bytes d.offset (d.offset + n), []) :: ps, ⟨?_, h2⟩, ?_⟩
                · simp only [FieldBytes, hk, and_true]
                  rw [slice_length (by omega) (by omega)]; omega
                · rw [slice_split (b := d.offset + n) (by omega) h1, h3]
                  simp
            · cases hf
        | none =>
          simp only [hk] at hf
          split at hf
          · cases hf
          · rename_i hlt
            cases hl : readLen (slice bytes d.offset d.stop).reverse 0 0 with
            | err => rw [hl] at hf; cases hf
            | panic => rw [hl] at hf; cases hf
            | ok lu =>
              obtain ⟨l, used⟩ := lu
              rw [hl] at hf
              obtain ⟨n, hn1, hn2, hn3, hn4, hn5⟩ := readLen_spec (by decide) (by decide) hl
              simp only [List.length_reverse, slice_length (Nat.le_of_not_lt hlt) hs] at hn3
              have hun : used = n := by omega
              subst hun
              simp only [Res.map, Res.bind_ok] at hf
              split at hf
              · cases hf
              · split at hf
                · rename_i hle
                  cases hdn : decodeNulls m (slice bytes d.offset (d.offset + l)) with
                  | err => rw [hdn] at hf; cases hf
                  | panic => rw [hdn] at hf; cases hf
                  | ok raw =>
                    rw [hdn] at hf
                    simp only [Res.bind_ok] at hf
                    cases hv : k.dec raw with
                    | err => rw [hv] at hf; cases hf
                    | panic => rw [hv] at hf; cases hf
                    | ok w =>
                      rw [hv] at hf
                      have hd2 : d2 = { offset := d.offset + l + 1, stop := d.stop - used } := by
                        cases hf; rfl
                      subst hd2
                      obtain ⟨h1, ps, h2, h3⟩ := ih (d := { offset := d.offset + l + 1, stop := d.stop - used })
                        (by show d.stop - used ≤ _; omega) hr
                      simp only at h1 h3
                      refine ⟨by omega, (slice bytes d.offset (d.offset + l + 1), slice bytes (d.stop - used) d.stop) :: ps,
                        ⟨?_, h2⟩, ?_⟩
                      · have hlen : (slice bytes (d.stop - used) d.stop).length = used := by
                          rw [slice_length (by omega) hs]; omega
                        simp only [FieldBytes, hk]
                        refine ⟨fun hnil => by rw [hnil] at hlen; simp at hlen; omega, ?_⟩
                        rw [slice_length (by omega) (by omega)]
                        have htake : (slice bytes d.offset d.stop).reverse.take used
                            = (slice bytes (d.stop - used) d.stop).reverse := by
                          rw [slice_split (b := d.stop - used) (by omega) (by omega), List.reverse_append,
                            List.take_left' (by rw [List.length_reverse, hlen])]
                        rw [htake] at hn5
                        simp only [Nat.zero_mul, Nat.pow_zero, Nat.zero_add, Nat.one_mul] at hn5
                        rw [← hn5, Nat.mod_eq_of_lt hn4]
                        omega
                      · rw [slice_split (b := d.offset + l + 1) (by omega) (by omega),
                          slice_split (a := d.offset + l + 1) (b := d.stop - used) (by omega) (by omega), h3]
                        simp
                · cases hf

/-- **C05.** A composite key decodes only if every byte of the input was read as part of exactly one
field, separator or length: there are no trailing or skipped bytes. -/
theorem C05_no_unread_bytes {m : NullMode} {ks : List KeyTy} {b : Bytes} {v : Tuple ks}
    (h : decodeComposite m ks b = .ok v) :
    ∃ ps, Occupies ks ps ∧ b = (ps.map (·.1)).flatten ++ (ps.reverse.map (·.2)).flatten := by
  simp only [decodeComposite] at h
  cases hf : decodeFields m ks b ⟨0, b.length⟩ with
  | err => rw [hf] at h; cases h
  | panic => rw [hf] at h; cases h
  | ok p =>
    obtain ⟨x, d'⟩ := p
    rw [hf] at h
    simp only [Res.bind_ok] at h
    split at h
    · rename_i he
      obtain ⟨_, ps, h1, h2⟩ := decodeFields_occupies (Nat.le_refl _) hf he
      refine ⟨ps, h1, ?_⟩
      rw [← h2]; simp [slice]
    · cases h

/-- **C05.** The same for derived enums: the discriminant is the first field. -/
theorem C05_enum_no_unread_bytes {m : NullMode} {d : EnumDesc} [DecidableEq d.repr.T] {b : Bytes}
    {i : Fin d.n} {v : Tuple (d.fields i)} (h : (enumKey m d).dec b = .ok ⟨i, v⟩) :
    ∃ ps, Occupies (d.repr :: d.fields i) ps ∧ b = (ps.map (·.1)).flatten ++ (ps.reverse.map (·.2)).flatten := by
  simp only at h
  cases hf : decodeField m d.repr b ⟨0, b.length⟩ with
  | err => rw [hf] at h; cases h
  | panic => rw [hf] at h; cases h
  | ok p =>
    obtain ⟨x, dd⟩ := p
    rw [hf] at h
    simp only [Res.bind_ok] at h
    cases hd : d.find x with
    | none => rw [hd] at h; cases h
    | some j =>
      rw [hd] at h
      simp only at h
      cases hr : decodeFields m (d.fields j) b dd with
      | err => rw [hr] at h; cases h
      | panic => rw [hr] at h; cases h
      | ok q =>
        obtain ⟨w, d3⟩ := q
        rw [hr] at h
        simp only [Res.bind_ok] at h
        split at h
        · rename_i he
          cases h
          have hall : decodeFields m (d.repr :: d.fields i) b ⟨0, b.length⟩ = .ok ((x, v), d3) := by
            simp only [decodeFields, hf, hr, Res.bind_ok]; rfl
          obtain ⟨_, ps, h1, h2⟩ := decodeFields_occupies (Nat.le_refl _) hall he
          refine ⟨ps, h1, ?_⟩
          rw [← h2]; simp [slice]
        · cases h

example : decodeComposite .escape [bytesKey, uintKey 2] [97, 0, 0, 0, 0, 7, 3] = .ok ([97, 0], (7 : BitVec 16), ()) := by rfl
example : Occupies [bytesKey, uintKey 2] [([97, 0, 0, 0], [3]), ([0, 7], [])] :=
  ⟨⟨by decide, by decide⟩, ⟨rfl, rfl⟩, trivial⟩
/-- One extra byte and the input is refused. -/
example : decodeComposite .escape [uintKey 1, uintKey 1] [1, 2, 3] = .err := by rfl

end Bonsai
