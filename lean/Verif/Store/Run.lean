import Verif.Store.Lemmas

/-!
# Whole transactions refine the specification
-/
set_option linter.unusedSimpArgs false
set_option linter.unusedVariables false

namespace Bonsai.Store
open Bonsai Bonsai.Names

theorem execUpdate_result {s c t id check x t' r} (h : execUpdate s c t id check x = .ok (t', r)) :
    ∃ hd, r = .updated c hd := by
  unfold execUpdate at h
  split at h
  · cases h
  · cases h; exact ⟨_, rfl⟩
  · split at h <;> cases h
    exact ⟨_, rfl⟩

theorem changedBy_collection {s t op t' r} (h : execOp s t op = .ok (t', r)) {c id del}
    (hc : changedBy r = some (c, id, del)) : c = op.collection := by
  obtain ⟨c0, cmd⟩ := op
  cases cmd with
  | insert i x =>
    simp only [execOp, execInsert] at h
    split at h
    · cases h
    · split at h
      · cases h
      · split at h <;> cases h
        simp [changedBy] at hc; exact hc.1.symm
  | update hd x =>
    obtain ⟨_, rfl⟩ := execUpdate_result h
    simp [changedBy] at hc; exact hc.1.symm
  | overwrite i x =>
    obtain ⟨_, rfl⟩ := execUpdate_result h
    simp [changedBy] at hc; exact hc.1.symm
  | delete hd =>
    simp only [execOp, execDelete] at h
    split at h
    · cases h
    · split at h
      · split at h <;> cases h
        simp [changedBy] at hc; exact hc.1.symm
      · cases h
  | check i rv =>
    simp only [execOp, execCheck] at h
    split at h
    · cases h
    · split at h
      · split at h <;> cases h
        simp [changedBy] at hc
      · cases h; simp [changedBy] at hc

/-- The transaction touches more than 65536 collections. -/
def TooManyCollections (ops : List Operation) : Prop :=
  ∃ l : List QName, l.Nodup ∧ l.length = 65537 ∧ ∀ c ∈ l, ∃ op ∈ ops, op.collection = c

theorem idxOf?_none {l : List QName} {c : QName} (h : l.idxOf? c = none) : c ∉ l := by
  intro hm
  rw [List.idxOf?] at h
  rw [List.findIdx?_eq_none_iff] at h
  simpa using h c hm

/-- Invariant of the recorded changes. -/
def ChangesOf (all : List Operation) (ch : Changes) : Prop :=
  ch.collections.Nodup ∧ ch.collections.length ≤ 65536 ∧
    ∀ c ∈ ch.collections, ∃ op ∈ all, op.collection = c

theorem recordChange_ok {all ch o ch'} (hch : ChangesOf all ch)
    (ho : ∀ c id del, o = some (c, id, del) → ∃ op ∈ all, op.collection = c)
    (h : recordChange ch o = .ok ch') : ChangesOf all ch' := by
  obtain ⟨hn, hl, hc⟩ := hch
  match o with
  | none => cases h; exact ⟨hn, hl, hc⟩
  | some (c, id, del) =>
    simp only [recordChange] at h
    split at h
    · cases h; exact ⟨hn, hl, hc⟩
    · rename_i hidx
      split at h
      · cases h
        refine ⟨?_, ?_, ?_⟩
        · rw [List.nodup_append]
          refine ⟨hn, by simp, ?_⟩
          intro a ha b hb
          simp at hb; subst hb
          exact fun e => idxOf?_none hidx (e ▸ ha)
        · simp; omega
        · intro x hx
          simp at hx
          rcases hx with hx | rfl
          · exact hc x hx
          · exact ho _ _ _ rfl
      · cases h

theorem recordChange_err {all ch o e} (hch : ChangesOf all ch)
    (ho : ∀ c id del, o = some (c, id, del) → ∃ op ∈ all, op.collection = c)
    (h : recordChange ch o = .error e) : e = .tooLarge ∧ TooManyCollections all := by
  obtain ⟨hn, hl, hc⟩ := hch
  match o with
  | none => cases h
  | some (c, id, del) =>
    simp only [recordChange] at h
    split at h
    · cases h
    · rename_i hidx
      split at h
      · cases h
      · rename_i hlen
        cases h
        refine ⟨rfl, ch.collections ++ [c], ?_, ?_, ?_⟩
        · rw [List.nodup_append]
          refine ⟨hn, by simp, ?_⟩
          intro a ha b hb
          simp at hb; subst hb
          exact fun e => idxOf?_none hidx (e ▸ ha)
        · simp; omega
        · intro x hx
          simp at hx
          rcases hx with hx | rfl
          · exact hc x hx
          · exact ho _ _ _ rfl

theorem runOps_refines {s : Schema} {S : Bytes → Prop} (hS : CollisionFree s.digest S)
    (all : List Operation) : ∀ (ops : List Operation) (t : Trees) (ch : Changes),
    (∀ op ∈ ops, op ∈ all) → ChangesOf all ch → DocsWF s.digest S t.docs → Writes S ops →
    match runOps s t ch ops with
    | .ok (t', _, rs) => DocsWF s.digest S t'.docs ∧ t'.invalidated = t.invalidated ∧
        SpecRun s t.abs ops (.ok (t'.abs, rs))
    | .error e => SpecRun s t.abs ops (.error e) ∨
        (ViewErr e ∧ ∃ op ∈ all, ¬ NoEager s op.collection) ∨
        (e = .tooLarge ∧ TooManyCollections all) := by
  intro ops
  induction ops with
  | nil => intro t ch hsub hch hwf hw; exact ⟨hwf, rfl, .nil _⟩
  | cons op ops ih =>
    intro t ch hsub hch hwf hw
    have href := execOp_refines (t := t) (op := op) hS hwf (fun x hx => hw op List.mem_cons_self x hx)
    have hl := lastKey_largest t op.collection
    rw [runOps]
    cases hex : execOp s t op with
    | error e =>
      simp only
      rcases href.err e hex with h | h
      · exact .inl (.fail hl h)
      · exact .inr (.inl ⟨h.1, op, hsub _ List.mem_cons_self, h.2⟩)
    | ok p =>
      obtain ⟨t1, r⟩ := p
      obtain ⟨hwf1, hinv1, hspec⟩ := href.ok t1 r hex
      have ho : ∀ c id del, changedBy r = some (c, id, del) → ∃ op ∈ all, op.collection = c := by
        intro c id del hc
        exact ⟨op, hsub _ List.mem_cons_self, (changedBy_collection hex hc).symm⟩
      simp only
      cases hrec : recordChange ch (changedBy r) with
      | error e =>
        simp only
        exact .inr (.inr (recordChange_err hch ho hrec))
      | ok ch1 =>
        simp only
        have hch1 := recordChange_ok hch ho hrec
        have := ih t1 ch1 (fun o ho => hsub o (List.mem_cons_of_mem _ ho)) hch1 hwf1
          (fun o ho => hw o (List.mem_cons_of_mem _ ho))
        cases hrun : runOps s t1 ch1 ops with
        | error e =>
          rw [hrun] at this
          simp only at this ⊢
          rcases this with h | h | h
          · exact .inl (.next_fail hl hspec h)
          · exact .inr (.inl h)
          · exact .inr (.inr h)
        | ok q =>
          obtain ⟨t2, ch2, rs⟩ := q
          rw [hrun] at this
          simp only at this ⊢
          exact ⟨this.1, this.2.1.trans hinv1, .next_ok hl hspec this.2.2⟩

theorem largest_unique {a : AbsStore} {c : QName} {l m : Option Bytes} (hl : IsLargest a c l)
    (hm : IsLargest a c m) : l = m := by
  cases l <;> cases m
  · rfl
  · exact absurd (hl _) hm.1
  · exact absurd (hm _) hl.1
  · rename_i x y
    rcases hl.2 y hm.1 with h | h
    · rw [h]
    · rcases hm.2 x hl.1 with h' | h'
      · rw [h']
      · exact absurd h (bytes_lt_asymm h')

/-- The specification is deterministic: it admits one outcome per starting map and operation list. -/
theorem SpecRun_deterministic {s : Schema} {a ops r r'} (h : SpecRun s a ops r)
    (h' : SpecRun s a ops r') : r = r' := by
  induction h generalizing r' with
  | nil => cases h'; rfl
  | fail hl h =>
    cases h' with
    | fail hl' h2 => cases largest_unique hl hl'; rw [h] at h2; cases h2; rfl
    | next_ok hl' h2 _ => cases largest_unique hl hl'; rw [h] at h2; cases h2
    | next_fail hl' h2 _ => cases largest_unique hl hl'; rw [h] at h2; cases h2
  | next_ok hl h _ ih =>
    cases h' with
    | fail hl' h2 => cases largest_unique hl hl'; rw [h] at h2; cases h2
    | next_ok hl' h2 h3 =>
      cases largest_unique hl hl'; rw [h] at h2; cases h2
      have := ih h3; cases this; rfl
    | next_fail hl' h2 h3 =>
      cases largest_unique hl hl'; rw [h] at h2; cases h2
      have := ih h3; cases this
  | next_fail hl h _ ih =>
    cases h' with
    | fail hl' h2 => cases largest_unique hl hl'; rw [h] at h2; cases h2
    | next_ok hl' h2 h3 =>
      cases largest_unique hl hl'; rw [h] at h2; cases h2
      have := ih h3; cases this
    | next_fail hl' h2 h3 =>
      cases largest_unique hl hl'; rw [h] at h2; cases h2
      have := ih h3; cases this; rfl

theorem nodup_subset_length {α : Type} [DecidableEq α] : ∀ {l m : List α}, l.Nodup → l ⊆ m →
    l.length ≤ m.length := by
  intro l
  induction l with
  | nil => intro m _ _; simp
  | cons a l ih =>
    intro m hn hs
    have ha : a ∈ m := hs List.mem_cons_self
    have := ih (m := m.erase a) (List.nodup_cons.mp hn).2 (by
      intro x hx
      have hxa : x ≠ a := fun e => (List.nodup_cons.mp hn).1 (e ▸ hx)
      exact (List.mem_erase_of_ne hxa).mpr (hs (List.mem_cons_of_mem _ hx)))
    rw [List.length_erase_of_mem ha] at this
    have hpos : 0 < m.length := List.length_pos_of_mem ha
    simp only [List.length_cons]
    omega

end Bonsai.Store
