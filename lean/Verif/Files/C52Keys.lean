import Verif.Files.Paths

/-! Helper lemmas for C52: the keys of the view of paths. -/
set_option linter.unusedSimpArgs false
set_option linter.unusedSectionVars false

namespace Bonsai.Files
open Bonsai Bonsai.Names Bonsai.Store Bonsai.Query

/-! ### UTF-8 -/

theorem utf8_append (a b : Str) : utf8 (a ++ b) = utf8 a ++ utf8 b := by simp [utf8]

theorem utf8_cons (c : Char) (a : Str) : utf8 (c :: a) = String.utf8EncodeChar c ++ utf8 a := rfl

theorem utf8_nil : utf8 [] = [] := rfl

theorem utf8_slash : utf8 ['/'] = [47] := by decide

theorem utf8_nul : utf8 ['\x00'] = [0] := by decide

theorem utf8_inj {a b : Str} (h : utf8 a = utf8 b) : a = b := by
  rcases charList_tri a b with h' | h' | h'
  · rw [← utf8_lt_iff, h] at h'; exact absurd h' (bytes_lt_irrefl _)
  · exact h'
  · rw [← utf8_lt_iff, h] at h'; exact absurd h' (bytes_lt_irrefl _)

theorem utf8_prefix {a b : Str} : utf8 a <+: utf8 b ↔ a <+: b := by
  constructor
  · intro h
    induction a generalizing b with
    | nil => exact List.nil_prefix
    | cons c a ih =>
      cases b with
      | nil =>
        have := @String.utf8EncodeChar_ne_nil c
        rw [utf8_nil, List.prefix_nil, utf8_cons] at h
        exact absurd (List.append_eq_nil_iff.mp h).1 this
      | cons d b =>
        obtain ⟨t, ht⟩ := h
        rw [utf8_cons, utf8_cons, List.append_assoc] at ht
        rcases nextChar_law.tri c d with e | e | e
        · have := utf8Char_lt ((char_lt_iff c d).mp e) (utf8 a ++ t) (utf8 b)
          rw [ht] at this
          exact absurd this (bytes_lt_irrefl _)
        · subst e
          have := List.append_cancel_left ht
          exact List.cons_prefix_cons.mpr ⟨rfl, ih ⟨t, this⟩⟩
        · have := utf8Char_lt ((char_lt_iff d c).mp e) (utf8 b) (utf8 a ++ t)
          rw [ht] at this
          exact absurd this (bytes_lt_irrefl _)
  · rintro ⟨t, rfl⟩
    rw [utf8_append]
    exact List.prefix_append _ _

theorem zero_mem_char {c : Char} (h : (0 : UInt8) ∈ String.utf8EncodeChar c) : c = '\x00' := by
  have hr := char_range c
  unfold String.utf8EncodeChar at h
  have e1 : c.val.toNat = c.toNat := rfl
  simp only [e1] at h
  have key : ∀ n : Nat, 0 < n → n < 256 → (0 : UInt8) ≠ UInt8.ofNat n := by
    intro n h1 h2 e
    have := congrArg UInt8.toNat e
    rw [toNat_ofNat8 h2] at this
    simp at this
    omega
  by_cases h0 : c.toNat = 0
  · exact char_ext_nat h0
  exfalso
  generalize c.toNat = n at *
  split at h
  · simp only [List.mem_singleton] at h
    exact key _ (by omega) (by omega) h
  · split at h
    · simp only [List.mem_cons, List.not_mem_nil, or_false] at h
      rcases h with h | h <;> exact key _ (by omega) (by omega) h
    · split at h
      · simp only [List.mem_cons, List.not_mem_nil, or_false] at h
        rcases h with h | h | h <;> exact key _ (by omega) (by omega) h
      · simp only [List.mem_cons, List.not_mem_nil, or_false] at h
        rcases h with h | h | h | h <;> exact key _ (by omega) (by omega) h

theorem zero_mem_utf8 {a : Str} : (0 : UInt8) ∈ utf8 a ↔ '\x00' ∈ a := by
  constructor
  · intro h
    obtain ⟨c, hc, h0⟩ := List.mem_flatMap.mp h
    exact zero_mem_char h0 ▸ hc
  · intro h
    exact List.mem_flatMap.mpr ⟨_, h, by decide⟩

/-! ### Keys -/

/-- The stored form of a string. -/
def esc (p : Str) : Bytes := escapeNulls (utf8 p)

theorem esc_of_no_nul {p : Str} (h : '\x00' ∉ p) : esc p = utf8 p :=
  escape_of_no_null (fun h' => h (zero_mem_utf8.mp h'))

/-- What follows the path and its separator in a key. -/
def tail (p n : Str) : Bytes := esc n ++ 0 :: (lenBytes (esc n).length ++ lenBytes (esc p).length)

theorem strBytes_ofList (p : Str) : strBytes (String.ofList p) = utf8 p := by
  rw [strBytes_eq, String.toList_ofList]

theorem piece_string (p : Str) : piece .escape stringKey (String.ofList p) =
    if (esc p).length ≤ 65535 then some (esc p ++ [0], [(esc p).length]) else none := by
  simp only [piece, handleNulls, strBytes_ofList, esc]
  rfl

theorem keyBytes_eq (p n : Str) : keyBytes p n =
    if (esc p).length ≤ 65535 ∧ (esc n).length ≤ 65535 then some (esc p ++ 0 :: tail p n) else none := by
  unfold keyBytes
  rw [encodeComposite_eq]
  simp only [pieces, piece_string]
  by_cases h1 : (esc p).length ≤ 65535
  · by_cases h2 : (esc n).length ≤ 65535
    · simp [h1, h2, tail]
    · simp [h1, h2]
  · simp [h1]

theorem keyBytes_some {p n : Str} {b : Bytes} (h : keyBytes p n = some b) :
    (esc p).length ≤ 65535 ∧ (esc n).length ≤ 65535 ∧ b = esc p ++ 0 :: tail p n := by
  rw [keyBytes_eq] at h
  split at h
  · rename_i hh
    injection h with h
    exact ⟨hh.1, hh.2, h.symm⟩
  · cases h

theorem recBound_eq (p : Str) (start : Bool) (q : Str) (hq : q = if start then p else nextSeq p) :
    recBound p start =
      if (esc q).length ≤ 65535 then some (esc q ++ 0 :: lenBytes (esc q).length) else none := by
  unfold recBound
  rw [← hq, encodeComposite_eq]
  simp only [pieces, piece_string]
  by_cases h1 : (esc q).length ≤ 65535
  · simp [h1]
  · simp [h1]

theorem lenBytes_length_le (l : Nat) : (lenBytes l).length ≤ 3 := by
  unfold lenBytes
  split
  · simp
  · split <;> simp

theorem decodeKey_keyBytes {p n : Str} {b : Bytes} (h : keyBytes p n = some b) : decodeKey b = some (p, n) := by
  obtain ⟨h1, h2, hb⟩ := keyBytes_some h
  have hl : b.length < 2 ^ 64 := by
    rw [hb]
    simp only [List.length_append, List.length_cons, tail]
    have := lenBytes_length_le (esc n).length
    have := lenBytes_length_le (esc p).length
    omega
  have hd := decodeComposite_encodeComposite (m := .escape) (ks := [stringKey, stringKey])
    (v := (String.ofList p, String.ofList n, ())) (b := b)
    (by
      intro k hk
      simp only [List.mem_cons, List.not_mem_nil, or_false, or_self] at hk
      subst hk
      exact ⟨string_rt, honest_of_none rfl⟩) h hl
  unfold decodeKey
  rw [hd]
  simp

theorem keyBytes_inj {p n p' n' : Str} {b : Bytes} (h : keyBytes p n = some b) (h' : keyBytes p' n' = some b) :
    p = p' ∧ n = n' := by
  have h1 := decodeKey_keyBytes h
  rw [decodeKey_keyBytes h'] at h1
  simp only [Option.some.injEq, Prod.mk.injEq] at h1
  exact ⟨h1.1.symm, h1.2.symm⟩

/-! ### Ranges of keys -/

/-- What starts with a null-free string and a null. -/
theorem prefix_escape {q : Bytes} (hq : (0 : UInt8) ∉ q) (b T : Bytes) :
    (q ++ [0]) <+: (escapeNulls b ++ 0 :: T) ↔ b = q ∨ (q ++ [0]) <+: b := by
  induction q generalizing b with
  | nil =>
    cases b with
    | nil => simp [escapeNulls]
    | cons x b =>
      by_cases hx : x = 0
      · simp [escapeNulls, hx]
      · simp [escapeNulls, hx, Ne.symm hx, eq_comm]
  | cons a q ih =>
    simp only [List.mem_cons, not_or] at hq
    have ha : a ≠ 0 := Ne.symm hq.1
    cases b with
    | nil => simp [escapeNulls, ha]
    | cons x b =>
      by_cases hx : x = 0
      · subst hx
        simp only [escapeNulls, if_true, List.cons_append, List.cons_prefix_cons, List.cons.injEq]
        constructor
        · rintro ⟨h, -⟩; exact absurd h ha
        · rintro (⟨h, -⟩ | ⟨h, -⟩)
          · exact absurd h.symm ha
          · exact absurd h ha
      · simp only [escapeNulls, hx, if_false, List.cons_append, List.cons_prefix_cons, List.cons.injEq]
        rw [ih hq.2]
        constructor
        · rintro ⟨rfl, h | h⟩
          · exact .inl ⟨rfl, h⟩
          · exact .inr ⟨rfl, h⟩
        · rintro (⟨rfl, h⟩ | ⟨rfl, h⟩)
          · exact ⟨rfl, .inl h⟩
          · exact ⟨rfl, .inr h⟩

/-- Between a string followed by 0 and the same string followed by 1. -/
theorem between_iff (P x : Bytes) : (P ++ [0] ≤ x ∧ x < P ++ [1]) ↔ (P ++ [0]) <+: x := by
  induction P generalizing x with
  | nil =>
    cases x with
    | nil => simp [bytes_le_iff]
    | cons y ys =>
      simp only [List.nil_append, bytes_le_iff, List.cons_lt_cons_iff, List.cons.injEq, List.cons_prefix_cons,
        List.nil_prefix, and_true]
      constructor
      · rintro ⟨h, h' | ⟨-, h'⟩⟩
        · have : y.toNat < 1 := by rw [UInt8.lt_iff_toNat_lt] at h'; simpa using h'
          exact UInt8.toNat_inj.mp (by simp; omega)
        · cases ys <;> simp at h'
      · rintro rfl
        refine ⟨?_, .inl (by decide)⟩
        cases ys <;> simp
  | cons a P ih =>
    cases x with
    | nil => simp [bytes_le_iff]
    | cons y ys =>
      have ih := ih ys
      simp only [List.cons_append, bytes_le_iff, List.cons_lt_cons_iff, List.cons.injEq, List.cons_prefix_cons] at ih ⊢
      rw [← ih]
      constructor
      · rintro ⟨⟨rfl, h1⟩ | h1 | ⟨rfl, h1⟩, h2 | ⟨h2', h2⟩⟩
        · exact absurd h2 (by simp)
        · exact ⟨rfl, .inl h1, h2⟩
        · exact absurd (UInt8.lt_trans h1 h2) (by simp)
        · exact absurd h1 (by simp [h2'])
        · exact absurd h2 (by simp)
        · exact ⟨rfl, .inr h1, h2⟩
      · rintro ⟨rfl, h1 | h1, h2⟩
        · exact ⟨.inl ⟨rfl, h1⟩, .inr ⟨rfl, h2⟩⟩
        · exact ⟨.inr (.inr ⟨rfl, h1⟩), .inr ⟨rfl, h2⟩⟩

theorem exactBound_eq (p : Str) (start : Bool) :
    exactBound p start = utf8 (forceSlash p) ++ [if start then 0 else 1] := by
  unfold exactBound forceSlash
  split
  · simp
  · simp [utf8_append, utf8_slash]

theorem no_nul_forceSlash {p : Str} (h : '\x00' ∉ p) : '\x00' ∉ forceSlash p := by
  unfold forceSlash
  split
  · exact h
  · simp [h]

/-- The keys a listing selects. -/
theorem list_selects {p : Str} (hp : '\x00' ∉ p) {c n : Str} {b : Bytes} (hb : keyBytes c n = some b) :
    Selects (some (.range ⟨.included (exactBound p true), .excluded (exactBound p false)⟩)) b ↔
      c = forceSlash p ∨ (forceSlash p ++ ['\x00']) <+: c := by
  obtain ⟨-, -, rfl⟩ := keyBytes_some hb
  simp only [Selects, Within, exactBound_eq, if_true, Bool.false_eq_true, if_false]
  rw [between_iff, esc, prefix_escape (fun h => no_nul_forceSlash hp (zero_mem_utf8.mp h))]
  constructor
  · rintro (h | h)
    · exact .inl (utf8_inj h)
    · refine .inr (utf8_prefix.mp ?_)
      rw [utf8_append, utf8_nul]
      exact h
  · rintro (rfl | h)
    · exact .inl rfl
    · refine .inr ?_
      have := utf8_prefix.mpr h
      rwa [utf8_append, utf8_nul] at this

/-- The order of keys whose first part has no null. -/
theorem key_lt_iff {p q : Str} (hp : '\x00' ∉ p) (hq : '\x00' ∉ q) (X Y : Bytes) :
    esc p ++ 0 :: X < esc q ++ 0 :: Y ↔ p < q ∨ p = q ∧ X < Y := by
  have hs : ∀ {a b : Str}, '\x00' ∉ a → '\x00' ∉ b → ∀ X Y : Bytes, a < b → esc a ++ 0 :: X < esc b ++ 0 :: Y := by
    intro a b ha hb X Y h
    have h1 := (utf8_lt_iff a b).mpr h
    have h2 := nullSeparated_of_no_null (fun h => ha (zero_mem_utf8.mp h)) (fun h => hb (zero_mem_utf8.mp h))
    have := escape_lt h1 h2.1 X Y
    simpa [esc] using this
  constructor
  · intro h
    rcases charList_tri p q with h' | rfl | h'
    · exact .inl h'
    · rw [append_lt_append_left_iff, List.cons_lt_cons_iff] at h
      simp at h
      exact .inr ⟨rfl, h⟩
    · exact absurd h (bytes_lt_asymm (hs hq hp Y X h'))
  · rintro (h | ⟨rfl, h⟩)
    · exact hs hp hq X Y h
    · rw [append_lt_append_left_iff, List.cons_lt_cons_iff]
      exact .inr ⟨rfl, h⟩

end Bonsai.Files
