import Verif.Key.Lemmas

/-! Helper lemmas about prefix ranges and UTF-8 order. -/

set_option linter.unusedSimpArgs false

namespace Bonsai

section generic
variable {α : Type} [LT α]

/-- The loop shared by both prefix range computations, on reversed sequences. -/
def nextRev (succ : α → Option α) : List α → Option (List α)
  | [] => none
  | c :: rest => match succ c with
    | some d => some (d :: rest)
    | none => nextRev succ rest

structure SuccLaw (succ : α → Option α) : Prop where
  irr : ∀ a : α, ¬ a < a
  tri : ∀ a b : α, a < b ∨ a = b ∨ b < a
  up : ∀ a b, succ a = some b → a < b
  tight : ∀ a b x, succ a = some b → x < b → ¬ a < x
  top : ∀ a x, succ a = none → ¬ a < x

theorem gappend_lt (h : ∀ a : α, ¬ a < a) (a : List α) {b c : List α} :
    a ++ b < a ++ c ↔ b < c := by
  induction a with
  | nil => simp
  | cons x xs ih => simp [List.cons_lt_cons_iff, h, ih]

theorem gprefix_not_lt (h : ∀ a : α, ¬ a < a) {p s : List α} (hp : p <+: s) : ¬ s < p := by
  obtain ⟨t, rfl⟩ := hp
  intro hlt
  have h2 : p ++ t < p ++ [] := by simpa using hlt
  rw [gappend_lt h] at h2
  simp at h2

theorem glt_append {k q : List α} (c : List α) (hk : k < q) : k < q ++ c := by
  induction k generalizing q with
  | nil => cases q with
    | nil => simp at hk
    | cons y ys => simp
  | cons x xs ih => cases q with
    | nil => simp at hk
    | cons y ys =>
      rcases List.cons_lt_cons_iff.mp hk with hk | ⟨rfl, h2⟩
      · exact List.cons_lt_cons_iff.mpr (.inl hk)
      · exact List.cons_lt_cons_iff.mpr (.inr ⟨rfl, ih h2⟩)

theorem gprefix_of_between {succ : α → Option α} (L : SuccLaw succ) {c d : α}
    (hs : succ c = some d) {q k : List α} (h1 : ¬ k < q ++ [c]) (h2 : k < q ++ [d]) :
    q ++ [c] <+: k := by
  induction q generalizing k with
  | nil =>
    cases k with
    | nil => simp at h1
    | cons x xs =>
      simp only [List.nil_append, List.cons_lt_cons_iff, List.not_lt_nil, and_false, or_false] at h1 h2
      have h3 := L.tight c d x hs h2
      rcases L.tri x c with h | h | h
      · exact absurd h h1
      · subst h; simp
      · exact absurd h h3
  | cons a q ih =>
    cases k with
    | nil => simp at h1
    | cons x xs =>
      simp only [List.cons_append, List.cons_lt_cons_iff] at h1 h2
      rcases h2 with h2 | ⟨rfl, h2⟩
      · exact absurd (.inl h2) h1
      · have := ih (fun h => h1 (.inr ⟨rfl, h⟩)) h2
        simpa using this

theorem nextRev_spec {succ : α → Option α} (L : SuccLaw succ) (r k : List α) :
    (¬ k < r.reverse ∧ ∀ e, nextRev succ r = some e → k < e.reverse) ↔ r.reverse <+: k := by
  induction r generalizing k with
  | nil => simp [nextRev]
  | cons c r ih =>
    simp only [nextRev, List.reverse_cons]
    cases hs : succ c with
    | some d =>
      simp only [Option.some.injEq, forall_eq', List.reverse_cons]
      constructor
      · rintro ⟨h1, h2⟩
        exact gprefix_of_between L hs h1 h2
      · intro h
        refine ⟨gprefix_not_lt L.irr h, ?_⟩
        obtain ⟨t, rfl⟩ := h
        simp only [List.append_assoc]
        rw [gappend_lt L.irr]
        simp [List.cons_lt_cons_iff, L.up c d hs]
    | none =>
      dsimp only
      constructor
      · rintro ⟨h1, h2⟩
        have hq : r.reverse <+: k :=
          (ih k).mp ⟨fun h => h1 (glt_append _ h), h2⟩
        obtain ⟨t, rfl⟩ := hq
        rw [gappend_lt L.irr] at h1
        cases t with
        | nil => simp at h1
        | cons x xs =>
          simp only [List.cons_lt_cons_iff, List.not_lt_nil, and_false, or_false] at h1
          rcases L.tri x c with h | h | h
          · exact absurd h h1
          · subst h; simp
          · exact absurd h (L.top c x hs)
      · intro h
        have hq : r.reverse <+: k := (List.prefix_append _ _).trans h
        exact ⟨gprefix_not_lt L.irr h, ((ih k).mpr hq).2⟩

end generic

/-! ## Bytes -/

def byteSucc (b : UInt8) : Option UInt8 :=
  if b.toNat + 1 < 256 then some (UInt8.ofNat (b.toNat + 1)) else none

theorem byteSucc_law : SuccLaw byteSucc where
  irr a := by simp
  tri := uint8_lt_or_eq_or_lt
  up a b h := by
    unfold byteSucc at h
    split at h
    · cases h
      rw [UInt8.lt_iff_toNat_lt, toNat_ofNat8 (by assumption)]; omega
    · cases h
  tight a b x h := by
    unfold byteSucc at h
    split at h
    · cases h
      rw [UInt8.lt_iff_toNat_lt, UInt8.lt_iff_toNat_lt, toNat_ofNat8 (by assumption)]; omega
    · cases h
  top a x h := by
    unfold byteSucc at h
    split at h
    · cases h
    · rw [UInt8.lt_iff_toNat_lt]
      have := x.toNat_lt; omega

theorem nextByteRev_eq (r : Bytes) : nextByteRev r = nextRev byteSucc r := by
  induction r with
  | nil => rfl
  | cons b r ih =>
    simp only [nextByteRev, nextRev, byteSucc, ih]
    split <;> simp_all

/-! ## Characters -/

theorem char_lt_iff (a b : Char) : a < b ↔ a.toNat < b.toNat := by
  rw [Char.lt_def]
  exact UInt32.lt_iff_toNat_lt

theorem char_ext_nat {a b : Char} (h : a.toNat = b.toNat) : a = b :=
  Char.ext (UInt32.toNat_inj.mp h)

theorem char_range (c : Char) : c.toNat < 0xD800 ∨ (0xDFFF < c.toNat ∧ c.toNat < 0x110000) := by
  have := c.valid
  exact this

theorem toNat_charOfNat {n : Nat} (h : n < 0xD800 ∨ (0xDFFF < n ∧ n < 0x110000)) :
    (Char.ofNat n).toNat = n := by
  have hv : n.isValidChar := h
  unfold Char.ofNat
  rw [dif_pos hv]
  rfl

theorem nextChar_some {a b : Char} (h : nextChar a = some b) :
    (a.toNat + 1 = 0xD800 ∧ b.toNat = 0xE000) ∨ (a.toNat + 1 ≠ 0xD800 ∧ b.toNat = a.toNat + 1) := by
  have ha := char_range a
  simp only [nextChar] at h
  by_cases h1 : a.toNat + 1 = 0xD800
  · simp only [h1] at h
    simp at h
    exact .inl ⟨h1, by rw [← h, toNat_charOfNat (by omega)]⟩
  · simp only [if_neg h1] at h
    split at h
    · cases h
      exact .inr ⟨h1, toNat_charOfNat (by omega)⟩
    · cases h

theorem nextChar_none {a : Char} (h : nextChar a = none) : a.toNat = 0x10FFFF := by
  have ha := char_range a
  simp only [nextChar] at h
  by_cases h1 : a.toNat + 1 = 0xD800
  · simp only [h1] at h
    simp at h
  · simp only [if_neg h1] at h
    split at h
    · cases h
    · omega

theorem nextChar_law : SuccLaw nextChar where
  irr a := by rw [char_lt_iff]; omega
  tri a b := by
    rw [char_lt_iff, char_lt_iff]
    rcases Nat.lt_trichotomy a.toNat b.toNat with h | h | h
    · exact .inl h
    · exact .inr (.inl (char_ext_nat h))
    · exact .inr (.inr h)
  up a b h := by
    have := nextChar_some h
    rw [char_lt_iff]; omega
  tight a b x h := by
    have := nextChar_some h
    have hx := char_range x
    rw [char_lt_iff, char_lt_iff]; omega
  top a x h := by
    have := nextChar_none h
    have hx := char_range x
    rw [char_lt_iff]; omega

theorem nextStrRev_eq (r : List Char) : nextStrRev r = nextRev nextChar r := by
  induction r with
  | nil => rfl
  | cons b r ih =>
    simp only [nextStrRev, nextRev, ih]
    cases nextChar b <;> rfl

/-! ## UTF-8 preserves the order of characters -/

theorem ofNat8_lt {n m : Nat} (h : n < m) (hm : m < 256) : UInt8.ofNat n < UInt8.ofNat m := by
  rw [UInt8.lt_iff_toNat_lt, toNat_ofNat8 hm, toNat_ofNat8 (by omega)]; exact h

theorem cons_ofNat_lt {n m : Nat} {X Y : Bytes} (hm : m < 256) (h : n < m ∨ (n = m ∧ X < Y)) :
    UInt8.ofNat n :: X < UInt8.ofNat m :: Y := by
  rw [List.cons_lt_cons_iff]
  rcases h with h | ⟨rfl, h⟩
  · exact .inl (ofNat8_lt h hm)
  · exact .inr ⟨rfl, h⟩

theorem utf8Char_lt {c d : Char} (h : c.toNat < d.toNat) (X Y : Bytes) :
    String.utf8EncodeChar c ++ X < String.utf8EncodeChar d ++ Y := by
  have hc := char_range c
  have hd := char_range d
  unfold String.utf8EncodeChar
  have e1 : c.val.toNat = c.toNat := rfl
  have e2 : d.val.toNat = d.toNat := rfl
  simp only [e1, e2]
  generalize c.toNat = n at *
  generalize d.toNat = m at *
  by_cases h1 : n ≤ 0x7f
  · rw [if_pos h1]
    by_cases h2 : m ≤ 0x7f
    · rw [if_pos h2]; exact cons_ofNat_lt (by omega) (.inl (by omega))
    · rw [if_neg h2]
      split
      · exact cons_ofNat_lt (by omega) (.inl (by omega))
      · split <;> exact cons_ofNat_lt (by omega) (.inl (by omega))
  · rw [if_neg h1, if_neg (show ¬ m ≤ 0x7f by omega)]
    by_cases h3 : n ≤ 0x7ff
    · rw [if_pos h3]
      by_cases h2 : m ≤ 0x7ff
      · rw [if_pos h2]
        refine cons_ofNat_lt (by omega) ?_
        by_cases e : n / 64 = m / 64
        · exact .inr ⟨by omega, cons_ofNat_lt (by omega) (.inl (by omega))⟩
        · exact .inl (by omega)
      · rw [if_neg h2]
        split <;> exact cons_ofNat_lt (by omega) (.inl (by omega))
    · rw [if_neg h3, if_neg (show ¬ m ≤ 0x7ff by omega)]
      by_cases h4 : n ≤ 0xffff
      · rw [if_pos h4]
        by_cases h2 : m ≤ 0xffff
        · rw [if_pos h2]
          refine cons_ofNat_lt (by omega) ?_
          by_cases e : n / 4096 = m / 4096
          · refine .inr ⟨by omega, cons_ofNat_lt (by omega) ?_⟩
            by_cases e : n / 64 = m / 64
            · exact .inr ⟨by omega, cons_ofNat_lt (by omega) (.inl (by omega))⟩
            · exact .inl (by omega)
          · exact .inl (by omega)
        · rw [if_neg h2]
          exact cons_ofNat_lt (by omega) (.inl (by omega))
      · rw [if_neg h4, if_neg (show ¬ m ≤ 0xffff by omega)]
        refine cons_ofNat_lt (by omega) ?_
        by_cases e : n / 262144 = m / 262144
        · refine .inr ⟨by omega, cons_ofNat_lt (by omega) ?_⟩
          by_cases e : n / 4096 = m / 4096
          · refine .inr ⟨by omega, cons_ofNat_lt (by omega) ?_⟩
            by_cases e : n / 64 = m / 64
            · exact .inr ⟨by omega, cons_ofNat_lt (by omega) (.inl (by omega))⟩
            · exact .inl (by omega)
          · exact .inl (by omega)
        · exact .inl (by omega)

theorem utf8_lt_of_lt {a b : List Char} (h : a < b) : utf8 a < utf8 b := by
  induction a generalizing b with
  | nil =>
    cases b with
    | nil => simp at h
    | cons d ds =>
      have := @String.utf8EncodeChar_ne_nil d
      simp only [utf8, List.flatMap_nil, List.flatMap_cons]
      cases hd : String.utf8EncodeChar d with
      | nil => exact absurd hd this
      | cons x xs => simp
  | cons c cs ih =>
    cases b with
    | nil => simp at h
    | cons d ds =>
      simp only [utf8, List.flatMap_cons]
      rcases List.cons_lt_cons_iff.mp h with h | ⟨rfl, h2⟩
      · exact utf8Char_lt ((char_lt_iff _ _).mp h) _ _
      · rw [append_lt_append_left_iff]; exact ih h2

theorem charList_tri (a b : List Char) : a < b ∨ a = b ∨ b < a := by
  induction a generalizing b with
  | nil => cases b <;> simp
  | cons x xs ih =>
    cases b with
    | nil => simp
    | cons y ys =>
      simp only [List.cons_lt_cons_iff, List.cons.injEq]
      rcases nextChar_law.tri x y with h | h | h
      · exact .inl (.inl h)
      · subst h
        rcases ih ys with h | h | h
        · exact .inl (.inr ⟨rfl, h⟩)
        · exact .inr (.inl ⟨rfl, h⟩)
        · exact .inr (.inr (.inr ⟨rfl, h⟩))
      · exact .inr (.inr (.inl h))

theorem utf8_lt_iff (a b : List Char) : utf8 a < utf8 b ↔ a < b := by
  constructor
  · intro h
    rcases charList_tri a b with h' | rfl | h'
    · exact h'
    · exact absurd h (bytes_lt_irrefl _)
    · exact absurd h (bytes_lt_asymm (utf8_lt_of_lt h'))
  · exact utf8_lt_of_lt

theorem strBytes_eq (s : String) : strBytes s = utf8 s.toList := by
  obtain ⟨l, rfl⟩ := String.exists_eq_ofList s
  simp only [strBytes, String.toByteArray_ofList, String.toList_ofList, List.utf8Encode, utf8]
  simp [List.data_toByteArray]

theorem strBytes_inj {s t : String} (h : strBytes s = strBytes t) : s = t := by
  rw [← String.toByteArray_inj]
  have : s.toByteArray.data = t.toByteArray.data := Array.toList_inj.mp h
  exact ByteArray.ext this

end Bonsai
