import Verif.Key.Bytes

/-!
# Ordered maps

The storage engine (`nebari`, an external crate) keeps every tree as a map from byte strings to
values, ordered by the bytes.  `OMap V` is that: a strictly increasing association list.  This file is
the model of one `nebari` tree (`get`, `set`, `remove`, `last_key`, `get_range`/`scan`,
`get_multiple`); it models no repository code.
-/
set_option linter.unusedSimpArgs false

namespace Bonsai

section lists
variable {V : Type}

/-- Association lookup. -/
def lookupL : List (Bytes × V) → Bytes → Option V
  | [], _ => none
  | (k, v) :: r, x => if k = x then some v else lookupL r x

/-- Insertion into an increasing association list, replacing an equal key. -/
def insertL (x : Bytes) (v : V) : List (Bytes × V) → List (Bytes × V)
  | [] => [(x, v)]
  | (k, w) :: r =>
    if k < x then (k, w) :: insertL x v r
    else if k = x then (x, v) :: r
    else (x, v) :: (k, w) :: r

def SortedL (l : List (Bytes × V)) : Prop := l.Pairwise fun a b => a.1 < b.1

theorem lookupL_none_of_lt {l : List (Bytes × V)} {x : Bytes} (h : ∀ p ∈ l, x < p.1) :
    lookupL l x = none := by
  induction l with
  | nil => rfl
  | cons p l ih =>
    obtain ⟨k, v⟩ := p
    have hk : x < k := h (k, v) (by simp)
    have : k ≠ x := by rintro rfl; exact bytes_lt_irrefl _ hk
    simp [lookupL, this, ih (fun p hp => h p (by simp [hp]))]

theorem mem_insertL {x : Bytes} {v : V} {l : List (Bytes × V)} {p : Bytes × V}
    (h : p ∈ insertL x v l) : p = (x, v) ∨ p ∈ l := by
  induction l with
  | nil => simp [insertL] at h; exact .inl h
  | cons q l ih =>
    obtain ⟨k, w⟩ := q
    simp only [insertL] at h
    split at h
    · simp only [List.mem_cons] at h ⊢
      rcases h with h | h
      · exact .inr (.inl h)
      · rcases ih h with h | h
        · exact .inl h
        · exact .inr (.inr h)
    · split at h
      · simp only [List.mem_cons] at h ⊢
        rcases h with h | h
        · exact .inl h
        · exact .inr (.inr h)
      · simpa using h

theorem insertL_sorted {x : Bytes} {v : V} {l : List (Bytes × V)} (h : SortedL l) :
    SortedL (insertL x v l) := by
  induction l with
  | nil => simp [insertL, SortedL]
  | cons q l ih =>
    obtain ⟨k, w⟩ := q
    obtain ⟨h1, h2⟩ := List.pairwise_cons.mp h
    simp only [insertL]
    split
    · rename_i hlt
      refine List.pairwise_cons.mpr ⟨?_, ih h2⟩
      intro p hp
      rcases mem_insertL hp with rfl | hp
      · exact hlt
      · exact h1 p hp
    · split
      · rename_i _ he
        subst he
        exact List.pairwise_cons.mpr ⟨h1, h2⟩
      · rename_i hn hne
        have hlt : x < k := by
          rcases bytes_trichotomy k x with h | h | h
          · exact absurd h hn
          · exact absurd h hne
          · exact h
        refine List.pairwise_cons.mpr ⟨?_, h⟩
        intro p hp
        simp only [List.mem_cons] at hp
        rcases hp with rfl | hp
        · exact hlt
        · exact bytes_lt_trans hlt (h1 p hp)

theorem lookupL_insertL {x y : Bytes} {v : V} {l : List (Bytes × V)} (h : SortedL l) :
    lookupL (insertL x v l) y = if x = y then some v else lookupL l y := by
  induction l with
  | nil => simp [insertL, lookupL]
  | cons q l ih =>
    obtain ⟨k, w⟩ := q
    obtain ⟨h1, h2⟩ := List.pairwise_cons.mp h
    simp only [insertL]
    split
    · rename_i hlt
      simp only [lookupL, ih h2]
      by_cases hk : k = y
      · subst hk
        have : x ≠ k := by rintro rfl; exact bytes_lt_irrefl _ hlt
        simp [this]
      · simp [hk]
    · split
      · rename_i _ he
        subst he
        simp only [lookupL]
        by_cases hk : k = y <;> simp [hk]
      · simp only [lookupL]

theorem lookupL_filter {l : List (Bytes × V)} {x y : Bytes} :
    lookupL (l.filter fun p => p.1 ≠ x) y = if x = y then none else lookupL l y := by
  induction l with
  | nil => simp [lookupL]
  | cons q l ih =>
    obtain ⟨k, w⟩ := q
    by_cases hk : k = x
    · subst hk
      simp only [ne_eq, List.filter_cons, not_true_eq_false, decide_false, Bool.false_eq_true,
        if_false] at ih ⊢
      rw [ih]
      simp only [lookupL]
      by_cases hy : k = y <;> simp [hy]
    · simp only [List.filter_cons, ne_eq, hk, not_false_eq_true, decide_true, if_true, lookupL]
      simp only [ne_eq] at ih
      rw [ih]
      by_cases hy : k = y
      · subst hy
        have : x ≠ k := fun e => hk e.symm
        simp [this]
      · simp [hy]

theorem mem_of_lookupL {l : List (Bytes × V)} {x : Bytes} {v : V} (h : lookupL l x = some v) :
    (x, v) ∈ l := by
  induction l with
  | nil => simp [lookupL] at h
  | cons q l ih =>
    obtain ⟨k, w⟩ := q
    simp only [lookupL] at h
    split at h
    · rename_i hk; cases h; subst hk; simp
    · simp [ih h]

theorem lookupL_of_mem {l : List (Bytes × V)} (hs : SortedL l) {x : Bytes} {v : V}
    (h : (x, v) ∈ l) : lookupL l x = some v := by
  induction l with
  | nil => simp at h
  | cons q l ih =>
    obtain ⟨k, w⟩ := q
    obtain ⟨h1, h2⟩ := List.pairwise_cons.mp hs
    simp only [List.mem_cons, Prod.mk.injEq] at h
    simp only [lookupL]
    rcases h with ⟨rfl, rfl⟩ | h
    · simp
    · have hlt := h1 _ h
      have : k ≠ x := by rintro rfl; exact bytes_lt_irrefl _ hlt
      simp [this, ih h2 h]

theorem sorted_ext {l m : List (Bytes × V)} (hl : SortedL l) (hm : SortedL m)
    (h : ∀ x, lookupL l x = lookupL m x) : l = m := by
  induction l generalizing m with
  | nil =>
    cases m with
    | nil => rfl
    | cons q m =>
      obtain ⟨k, w⟩ := q
      have := h k
      simp [lookupL] at this
  | cons p l ih =>
    obtain ⟨k, v⟩ := p
    cases m with
    | nil =>
      have := h k
      simp [lookupL] at this
    | cons q m =>
      obtain ⟨k', v'⟩ := q
      obtain ⟨l1, l2⟩ := List.pairwise_cons.mp hl
      obtain ⟨m1, m2⟩ := List.pairwise_cons.mp hm
      have hk : k = k' := by
        rcases bytes_trichotomy k k' with hlt | he | hlt
        · have h1 := h k
          rw [lookupL_of_mem hl (List.mem_cons_self ..),
            lookupL_none_of_lt (l := (k', v') :: m) (x := k)] at h1
          · cases h1
          · intro p hp
            simp only [List.mem_cons] at hp
            rcases hp with rfl | hp
            · exact hlt
            · exact bytes_lt_trans hlt (m1 p hp)
        · exact he
        · have h1 := h k'
          rw [lookupL_of_mem hm (List.mem_cons_self ..),
            lookupL_none_of_lt (l := (k, v) :: l) (x := k')] at h1
          · cases h1
          · intro p hp
            simp only [List.mem_cons] at hp
            rcases hp with rfl | hp
            · exact hlt
            · exact bytes_lt_trans hlt (l1 p hp)
      subst hk
      have hv : v = v' := by simpa [lookupL] using h k
      subst hv
      rw [ih l2 m2]
      intro x
      by_cases hx : k = x
      · subst hx
        rw [lookupL_none_of_lt l1, lookupL_none_of_lt m1]
      · simpa [lookupL, hx] using h x

end lists

/-- One storage tree. -/
structure OMap (V : Type) where
  list : List (Bytes × V)
  sorted : SortedL list

namespace OMap
variable {V W : Type}

/-- A tree that was never written. -/
def empty : OMap V := ⟨[], List.Pairwise.nil⟩

/-- nebari `Tree::get`. -/
def get (m : OMap V) (k : Bytes) : Option V := lookupL m.list k

/-- nebari `Tree::set`. -/
def set (m : OMap V) (k : Bytes) (v : V) : OMap V := ⟨insertL k v m.list, insertL_sorted m.sorted⟩

/-- nebari `Tree::remove`. -/
def remove (m : OMap V) (k : Bytes) : OMap V :=
  ⟨m.list.filter fun p => p.1 ≠ k, List.Pairwise.filter _ m.sorted⟩

/-- nebari `Tree::last_key`. -/
def lastKey (m : OMap V) : Option Bytes := m.list.getLast?.map (·.1)

/-- All keys in order (`get_range(..)`). -/
def keys (m : OMap V) : List Bytes := m.list.map (·.1)

@[simp] theorem get_empty (k : Bytes) : (empty : OMap V).get k = none := rfl

theorem get_set (m : OMap V) (k x : Bytes) (v : V) :
    (m.set k v).get x = if k = x then some v else m.get x := lookupL_insertL m.sorted

theorem get_remove (m : OMap V) (k x : Bytes) :
    (m.remove k).get x = if k = x then none else m.get x := lookupL_filter

@[simp] theorem get_set_self (m : OMap V) (k : Bytes) (v : V) : (m.set k v).get k = some v := by
  simp [get_set]

@[simp] theorem get_remove_self (m : OMap V) (k : Bytes) : (m.remove k).get k = none := by
  simp [get_remove]

theorem get_set_ne (m : OMap V) {k x : Bytes} (h : k ≠ x) (v : V) : (m.set k v).get x = m.get x := by
  simp [get_set, h]

theorem get_remove_ne (m : OMap V) {k x : Bytes} (h : k ≠ x) : (m.remove k).get x = m.get x := by
  simp [get_remove, h]

theorem ext_get {m n : OMap V} (h : ∀ k, m.get k = n.get k) : m = n := by
  obtain ⟨l, hl⟩ := m
  obtain ⟨l', hl'⟩ := n
  have : l = l' := sorted_ext hl hl' h
  subst this
  rfl

theorem mem_list_iff {m : OMap V} {k : Bytes} {v : V} : (k, v) ∈ m.list ↔ m.get k = some v :=
  ⟨lookupL_of_mem m.sorted, mem_of_lookupL⟩

theorem mem_keys_iff {m : OMap V} {k : Bytes} : k ∈ m.keys ↔ (m.get k).isSome := by
  constructor
  · intro h
    obtain ⟨p, hp, rfl⟩ := List.mem_map.mp h
    rw [mem_list_iff.mp hp]; rfl
  · intro h
    obtain ⟨v, hv⟩ := Option.isSome_iff_exists.mp h
    exact List.mem_map.mpr ⟨(k, v), mem_list_iff.mpr hv, rfl⟩

theorem keys_sorted (m : OMap V) : m.keys.Pairwise (· < ·) :=
  List.pairwise_map.mpr m.sorted

theorem keys_nodup (m : OMap V) : m.keys.Nodup :=
  List.Pairwise.imp (fun {a b} (h : a < b) (e : a = b) => bytes_lt_irrefl b (e ▸ h)) m.keys_sorted

/-- The last key is present and no key is larger. -/
theorem lastKey_some {m : OMap V} {k : Bytes} (h : m.lastKey = some k) :
    (m.get k).isSome ∧ ∀ x, (m.get x).isSome → x = k ∨ x < k := by
  unfold lastKey at h
  cases hl : m.list.getLast? with
  | none => simp [hl] at h
  | some p =>
    simp [hl] at h
    subst h
    have hp : p ∈ m.list := List.mem_of_getLast? hl
    refine ⟨mem_keys_iff.mp (List.mem_map.mpr ⟨p, hp, rfl⟩), ?_⟩
    intro x hx
    obtain ⟨v, hv⟩ := Option.isSome_iff_exists.mp hx
    have hm := mem_list_iff.mpr hv
    obtain ⟨l, hl'⟩ := List.getLast?_eq_some_iff.mp hl
    rw [hl'] at hm
    have hs := m.sorted
    rw [hl'] at hs
    simp only [List.mem_append, List.mem_singleton] at hm
    rcases hm with hm | rfl
    · exact .inr ((List.pairwise_append.mp hs).2.2 _ hm p (by simp))
    · exact .inl rfl

theorem lastKey_none {m : OMap V} (h : m.lastKey = none) (x : Bytes) : m.get x = none := by
  unfold lastKey at h
  cases hl : m.list with
  | nil => simp [get, hl, lookupL]
  | cons p l => simp [hl] at h

end OMap

/-- Replace one value of a function (one tree of the database). -/
def upd {α β : Type} [DecidableEq α] (f : α → β) (a : α) (b : β) : α → β :=
  fun x => if x = a then b else f x

@[simp] theorem upd_self {α β : Type} [DecidableEq α] (f : α → β) (a : α) (b : β) :
    upd f a b a = b := by simp [upd]

theorem upd_ne {α β : Type} [DecidableEq α] (f : α → β) {a x : α} (b : β) (h : x ≠ a) :
    upd f a b x = f x := by simp [upd, h]

theorem upd_id {α β : Type} [DecidableEq α] (f : α → β) (a : α) : upd f a (f a) = f := by
  funext x; by_cases h : x = a <;> simp [upd, h]

end Bonsai
