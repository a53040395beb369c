/-!
# Byte strings and their order

BonsaiDb stores every key as a byte string, and the storage engine orders them with Rust's
`Ord for [u8]` (unsigned lexicographic order, the same as `memcmp` with length as tie-break).
We use `List UInt8` with the lexicographic `<` that core Lean defines on lists.
Nothing in this file models repository code; it only has general facts about that order.
-/

namespace Bonsai

abbrev Bytes := List UInt8

/-- Result of a Rust function that may return `Ok`, return `Err`, or panic. -/
inductive Res (α : Type) where
  | ok (a : α)
  | err
  | panic
  deriving DecidableEq, Repr

namespace Res
def bind {α β : Type} : Res α → (α → Res β) → Res β
  | ok a, f => f a
  | err, _ => err
  | panic, _ => panic

def map {α β : Type} (f : α → β) : Res α → Res β
  | ok a => ok (f a)
  | err => err
  | panic => panic

@[simp] theorem bind_ok {α β : Type} (a : α) (f : α → Res β) : (ok a).bind f = f a := rfl
@[simp] theorem bind_err {α β : Type} (f : α → Res β) : (err : Res α).bind f = err := rfl
@[simp] theorem bind_panic {α β : Type} (f : α → Res β) : (panic : Res α).bind f = panic := rfl
@[simp] theorem map_ok {α β : Type} (a : α) (f : α → β) : (ok a).map f = ok (f a) := rfl
@[simp] theorem map_err {α β : Type} (f : α → β) : (err : Res α).map f = err := rfl
@[simp] theorem map_panic {α β : Type} (f : α → β) : (panic : Res α).map f = panic := rfl

def ofOption {α : Type} : Option α → Res α
  | some a => ok a
  | none => err
end Res

/-! ## The lexicographic order on byte strings -/

theorem bytes_lt_irrefl (a : Bytes) : ¬ a < a := List.lt_irrefl a

theorem bytes_lt_trans {a b c : Bytes} (h : a < b) (h' : b < c) : a < c := List.lt_trans h h'

theorem bytes_lt_asymm {a b : Bytes} (h : a < b) : ¬ b < a :=
  fun h' => bytes_lt_irrefl a (bytes_lt_trans h h')

theorem uint8_lt_or_eq_or_lt (a b : UInt8) : a < b ∨ a = b ∨ b < a := by
  rw [UInt8.lt_iff_toNat_lt, UInt8.lt_iff_toNat_lt, ← UInt8.toNat_inj]; omega

theorem bytes_trichotomy (a b : Bytes) : a < b ∨ a = b ∨ b < a := by
  induction a generalizing b with
  | nil => cases b <;> simp
  | cons x xs ih =>
    cases b with
    | nil => simp
    | cons y ys =>
      simp only [List.cons_lt_cons_iff, List.cons.injEq]
      rcases uint8_lt_or_eq_or_lt x y with h | h | h
      · exact .inl (.inl h)
      · subst h
        rcases ih ys with h | h | h
        · exact .inl (.inr ⟨rfl, h⟩)
        · exact .inr (.inl ⟨rfl, h⟩)
        · exact .inr (.inr (.inr ⟨rfl, h⟩))
      · exact .inr (.inr (.inl h))

theorem append_lt_append_left_iff (a : Bytes) {b c : Bytes} : a ++ b < a ++ c ↔ b < c := by
  induction a with
  | nil => simp
  | cons x xs ih =>
    simp [ih]

/-- If two byte strings are ordered and the smaller is not a prefix of the larger, the order is
decided at a common position, so anything may follow. -/
theorem append_lt_append_of_lt {a b : Bytes} (h : a < b) (hp : ¬ a <+: b) (x y : Bytes) :
    a ++ x < b ++ y := by
  induction a generalizing b with
  | nil => exact absurd (List.nil_prefix) hp
  | cons c cs ih =>
    cases b with
    | nil => simp at h
    | cons d ds =>
      simp only [List.cons_append, List.cons_lt_cons_iff] at h ⊢
      rcases h with h | ⟨h, h'⟩
      · exact .inl h
      · subst h
        refine .inr ⟨rfl, ih h' ?_⟩
        intro hpre
        exact hp (by simpa using hpre)

/-- Byte strings of equal length: being ordered means differing at a position. -/
theorem not_prefix_of_lt_length {a b : Bytes} (h : a < b) (hl : a.length = b.length) :
    ¬ a <+: b := by
  intro hp
  have := hp.eq_of_length hl
  subst this
  exact bytes_lt_irrefl _ h

/-- Not below `x` implies not below an extension of ... -/
theorem prefix_not_lt {p s : Bytes} (h : p <+: s) : ¬ s < p := by
  obtain ⟨t, rfl⟩ := h
  intro h
  have h2 : p ++ t < p ++ [] := by simpa using h
  rw [append_lt_append_left_iff] at h2
  simp at h2

end Bonsai
