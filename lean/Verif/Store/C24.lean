import Verif.Store.Step

/-!
# C24: does an accepted header mean the document is unchanged?
-/
set_option linter.unusedSimpArgs false
set_option linter.unusedVariables false

namespace Bonsai.Store
open Bonsai Bonsai.Names

/-- A history: transactions with the ids they got, one after another. -/
def runHistory (s : Schema) : Db → List (Nat × List Operation) → Db
  | db, [] => db
  | db, (tid, ops) :: h => runHistory s (applyToRoots s db tid ops).2 h

theorem runHistory_append {s} : ∀ (h1 h2 : List (Nat × List Operation)) (db : Db),
    runHistory s db (h1 ++ h2) = runHistory s (runHistory s db h1) h2 := by
  intro h1
  induction h1 with
  | nil => intro h2 db; rfl
  | cons p h1 ih => intro h2 db; exact ih h2 _

/-- The operation deletes document `id` of collection `c`. -/
def Operation.deletes (op : Operation) (c : QName) (id : Bytes) : Prop :=
  op.collection = c ∧ ∃ h : Header, h.id = id ∧ op.command = .delete h

/-- How an existing document can move without being deleted: it stays, or its revision grows. -/
def Grows (a b : Document) : Prop := a = b ∨ a.header.revision.id < b.header.revision.id

theorem Grows.trans {a b c : Document} (h1 : Grows a b) (h2 : Grows b c) : Grows a c := by
  rcases h1 with rfl | h1
  · exact h2
  · rcases h2 with rfl | h2
    · exact .inr h1
    · exact .inr (Nat.lt_trans h1 h2)

theorem storeDoc_get {s c t id d t'} (h : storeDoc s c t id d = .ok t') (c' : QName) (id' : Bytes) :
    (t'.docs c').get id' = if c' = c ∧ id' = id then some d else (t.docs c').get id' := by
  rw [(storeDoc_ok h).1, get_upd]
  by_cases hc : c' = c
  · subst hc
    rw [if_pos rfl, OMap.get_set]
    by_cases hi : id = id'
    · subst hi; simp
    · have : ¬ id' = id := fun e => hi e.symm
      simp [hi, this]
  · simp [hc]

theorem execUpdate_grows {s c0 t i chk x t' r} (h : execUpdate s c0 t i chk x = .ok (t', r))
    {c id d} (hd : (t.docs c).get id = some d) : ∃ d', (t'.docs c).get id = some d' ∧ Grows d d' := by
  unfold execUpdate at h
  split at h
  · cases h
  · cases h; exact ⟨d, hd, .inl rfl⟩
  · rename_i nd hd' hu
    split at h
    · cases h
    · rename_i t2 hst
      cases h
      rw [storeDoc_get hst]
      by_cases he : c = c0 ∧ id = i
      · obtain ⟨rfl, rfl⟩ := he
        rw [if_pos ⟨rfl, rfl⟩]
        refine ⟨_, rfl, .inr ?_⟩
        rw [hd] at hu
        simp only [updateStored] at hu
        split at hu
        · simp only [Revision.next] at hu
          split at hu
          · cases hu
          · rename_i hn
            split at hn
            · cases hn
            · split at hn
              · cases hn; cases hu; simp
              · cases hn
          · cases hu
        · cases hu
      · rw [if_neg he]; exact ⟨d, hd, .inl rfl⟩

theorem execOp_grows {s t op t' r} (h : execOp s t op = .ok (t', r)) {c id d}
    (hd : (t.docs c).get id = some d) (hdel : ¬ op.deletes c id) :
    ∃ d', (t'.docs c).get id = some d' ∧ Grows d d' := by
  obtain ⟨c0, cmd⟩ := op
  cases cmd with
  | insert oid x =>
    obtain ⟨hh, -, -, -, h1, h2, h3⟩ := C23_insert_starts_at_zero s t t' c0 oid x r h
    refine ⟨d, ?_, .inl rfl⟩
    rw [h3 c id]
    · exact hd
    · rintro ⟨rfl, rfl⟩; rw [hd] at h1; cases h1
  | update hh x => exact execUpdate_grows h hd
  | overwrite i x => exact execUpdate_grows h hd
  | delete hh =>
    simp only [execOp, execDelete] at h
    split at h
    · cases h
    · split at h
      · split at h
        · cases h
        · rename_i hu
          cases h
          refine ⟨d, ?_, .inl rfl⟩
          rw [(updateEagerViews_docs hu).1]
          simp only
          rw [get_upd]
          split
          · rename_i hc
            subst hc
            rw [OMap.get_remove_ne _ (fun e => hdel ⟨rfl, hh, e, rfl⟩)]
            exact hd
          · exact hd
      · cases h
  | check i rv =>
    simp only [execOp, execCheck] at h
    split at h
    · cases h
    · split at h
      · split at h <;> cases h
        exact ⟨d, hd, .inl rfl⟩
      · cases h; exact ⟨d, hd, .inl rfl⟩

theorem runOps_grows {s c id} : ∀ {ops t ch t' ch' rs d}, runOps s t ch ops = .ok (t', ch', rs) →
    (t.docs c).get id = some d → (∀ op ∈ ops, ¬ op.deletes c id) →
    ∃ d', (t'.docs c).get id = some d' ∧ Grows d d' := by
  intro ops
  induction ops with
  | nil => intro t ch t' ch' rs d h hd _; simp only [runOps] at h; cases h; exact ⟨d, hd, .inl rfl⟩
  | cons op ops ih =>
    intro t ch t' ch' rs d h hd hn
    rw [runOps] at h
    split at h
    · cases h
    · rename_i hex
      split at h
      · cases h
      · split at h
        · cases h
        · rename_i hrun
          cases h
          obtain ⟨d1, h1, g1⟩ := execOp_grows hex hd (hn op List.mem_cons_self)
          obtain ⟨d2, h2, g2⟩ := ih hrun h1 fun o ho => hn o (List.mem_cons_of_mem _ ho)
          exact ⟨d2, h2, g1.trans g2⟩

theorem apply_grows {s c id db tid ops d} (hd : getDoc db c id = some d)
    (hn : ∀ op ∈ ops, ¬ op.deletes c id) :
    ∃ d', getDoc (applyToRoots s db tid ops).2 c id = some d' ∧ Grows d d' := by
  unfold applyToRoots
  split
  · exact ⟨d, hd, .inl rfl⟩
  · rename_i t' ch rs hp
    unfold prepare at hp
    split at hp
    · split at hp
      · cases hp
      · rename_i hrun
        cases hp
        obtain ⟨d', h1, h2⟩ := runOps_grows hrun hd hn
        exact ⟨d', h1, h2⟩
    · cases hp

theorem history_grows {s c id} : ∀ (h : List (Nat × List Operation)) (db : Db) (d : Document),
    getDoc db c id = some d → (∀ p ∈ h, ∀ op ∈ p.2, ¬ op.deletes c id) →
    ∃ d', getDoc (runHistory s db h) c id = some d' ∧ Grows d d' := by
  intro h
  induction h with
  | nil => intro db d hd _; exact ⟨d, hd, .inl rfl⟩
  | cons p h ih =>
    intro db d hd hn
    obtain ⟨d1, h1, g1⟩ := apply_grows (s := s) (tid := p.1) hd (hn p List.mem_cons_self)
    obtain ⟨d2, h2, g2⟩ := ih _ d1 h1 fun q hq => hn q (List.mem_cons_of_mem _ hq)
    exact ⟨d2, h2, g1.trans g2⟩

/-- **C24 (the part that holds).** A document read at some point and not deleted since: if the
header read then is still current (so an update with it is accepted), the document was the same at
every moment in between. Missing: deleting and recreating the document, see below. -/
theorem C24_accepted_header_unchanged_partial (s : Schema) (db : Db) (c : QName) (id : Bytes)
    (d d' : Document) (before after : List (Nat × List Operation)) (hd : getDoc db c id = some d)
    (hn : ∀ p ∈ before ++ after, ∀ op ∈ p.2, ¬ op.deletes c id)
    (hd' : getDoc (runHistory s db (before ++ after)) c id = some d')
    (hcur : d'.header.revision = d.header.revision) :
    getDoc (runHistory s db before) c id = some d ∧ d' = d := by
  obtain ⟨d1, h1, g1⟩ := history_grows (s := s) before db d hd fun p hp => hn p (by simp [hp])
  obtain ⟨d2, h2, g2⟩ := history_grows (s := s) after _ d1 h1 fun p hp => hn p (by simp [hp])
  rw [runHistory_append] at hd'
  rw [hd'] at h2
  cases h2
  rcases g1 with rfl | g1
  · rcases g2 with rfl | g2
    · exact ⟨h1, rfl⟩
    · rw [hcur] at g2; exact absurd g2 (Nat.lt_irrefl _)
  · rcases g2 with rfl | g2
    · rw [hcur] at g1; exact absurd g1 (Nat.lt_irrefl _)
    · rw [hcur] at g2; exact absurd (Nat.lt_trans g1 g2) (Nat.lt_irrefl _)

/-- **C24 (the part that holds).** In all cases an accepted header guarantees the contents read with
it: two documents (of any two reachable databases) with equal headers have equal contents. -/
theorem C24_header_determines_contents_partial (s : Schema) (S : Bytes → Prop)
    (hS : CollisionFree s.digest S) (db db' : Db) (hr : Reachable s S db) (hr' : Reachable s S db')
    (c c' : QName) (id id' : Bytes) (d d' : Document) (hd : getDoc db c id = some d)
    (hd' : getDoc db' c' id' = some d') (h : d.header.revision = d'.header.revision) :
    d.contents = d'.contents := by
  obtain ⟨-, h1, h2⟩ := hr.wf hS _ _ _ hd
  obtain ⟨-, h1', h2'⟩ := hr'.wf hS _ _ _ hd'
  exact hS _ _ h2 h2' (by rw [← h1, ← h1', h])

/-- The history of the counterexample: the document is deleted and inserted again. -/
def abaHistory : List (Nat × List Operation) :=
  [(2, [⟨exC, .delete ⟨[7], ⟨0, [1]⟩⟩⟩]), (3, [⟨exC, .insert (some [7]) [1]⟩])]

def abaStart : Db := (applyToRoots exSchema .empty 1 [⟨exC, .insert (some [7]) [1]⟩]).2

/-- **C24 (violated, finding F9).** A header survives deletion: between reading the header and using
it the document was deleted and recreated, and yet the update is accepted. -/
theorem C24_violated_by_recreation :
    ∃ h : Header, (getDoc abaStart exC [7]).map (·.header) = some h ∧
      getDoc (runHistory exSchema abaStart (abaHistory.take 1)) exC [7] = none ∧
      (applyToRoots exSchema (runHistory exSchema abaStart abaHistory) 4
        [⟨exC, .update h [5]⟩]).1 = .ok [.updated exC ⟨[7], ⟨1, [5]⟩⟩] :=
  ⟨⟨[7], ⟨0, [1]⟩⟩, rfl, rfl, rfl⟩

example : ∀ p ∈ [(2, [(⟨exC, .overwrite [7] [1]⟩ : Operation), ⟨exC, .delete ⟨[8], ⟨0, [1]⟩⟩⟩])],
    ∀ op ∈ p.2, ¬ op.deletes exC [7] := by
  intro p hp op hop
  simp at hp
  subst hp
  simp at hop
  rcases hop with rfl | rfl
  · rintro ⟨_, h, _, e⟩; cases e
  · rintro ⟨_, h, e1, e⟩; cases e; cases e1

end Bonsai.Store
