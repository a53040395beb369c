import Verif.Store.C26

/-!
# C21, C23, C27: what one operation does, wherever it stands in a transaction
-/
set_option linter.unusedSimpArgs false
set_option linter.unusedVariables false

namespace Bonsai.Store
open Bonsai Bonsai.Names

/-- The databases a program can be in: start empty, run transactions whose contents are in `S`;
other writers (view updates, key-value persistence) leave documents alone. -/
inductive Reachable (s : Schema) (S : Bytes → Prop) : Db → Prop
  | empty : Reachable s S .empty
  | transaction {db} (tid ops) (h : Reachable s S db) (hw : Writes S ops) :
      Reachable s S (applyToRoots s db tid ops).2
  | background {db db'} (h : Reachable s S db) (hd : db'.trees.docs = db.trees.docs) :
      Reachable s S db'

theorem Reachable.wf {s S db} (hS : CollisionFree s.digest S) (h : Reachable s S db) :
    DocsWF s.digest S db.trees.docs := by
  induction h with
  | empty => exact docsWF_empty
  | transaction tid ops h hw ih =>
    exact (serve_refines (q := .transaction tid ops) hS ih (by
      intro _ _ e; cases e; exact hw)).1
  | background h hd ih => rw [hd]; exact ih

/-- A transaction fails as a whole when one operation fails on the state its predecessors left. -/
theorem runOps_fail {s op e} : ∀ {pre post : List Operation} {t ch t1 ch1 rs},
    runOps s t ch pre = .ok (t1, ch1, rs) → execOp s t1 op = .error e →
    runOps s t ch (pre ++ op :: post) = .error e := by
  intro pre
  induction pre with
  | nil =>
    intro post t ch t1 ch1 rs h he
    simp only [runOps] at h; cases h
    simp only [List.nil_append, runOps, he]
  | cons o pre ih =>
    intro post t ch t1 ch1 rs h he
    rw [runOps] at h
    rw [List.cons_append, runOps]
    cases hx : execOp s t o with
    | error e => rw [hx] at h; simp at h
    | ok p =>
      obtain ⟨t2, r⟩ := p
      rw [hx] at h
      simp only at h ⊢
      cases hr : recordChange ch (changedBy r) with
      | error e => rw [hr] at h; simp at h
      | ok ch2 =>
        rw [hr] at h
        simp only at h ⊢
        cases hrun : runOps s t2 ch2 pre with
        | error e => rw [hrun] at h; simp at h
        | ok q =>
          obtain ⟨t3, ch3, rs3⟩ := q
          rw [hrun] at h
          simp only at h
          cases h
          rw [ih hrun he]

theorem apply_fail {s db tid pre op post t1 ch1 rs e}
    (hk : ∀ o ∈ pre ++ op :: post, o.collection ∈ s.collections)
    (hpre : runOps s db.trees ⟨[], []⟩ pre = .ok (t1, ch1, rs)) (he : execOp s t1 op = .error e) :
    applyToRoots s db tid (pre ++ op :: post) = (.error e, db) := by
  unfold applyToRoots prepare
  rw [if_pos (collectionsKnown_iff.mpr hk), runOps_fail hpre he]

/-! ## C21 -/

/-- **C21.** Anywhere in a transaction: an update whose header carries another revision than the
stored document (as left by the preceding operations) makes the transaction fail with a conflict
and changes nothing at all. -/
theorem C21_stale_update_rejected (s : Schema) (db : Db) (tid : Nat) (c : QName) (h : Header)
    (x : Bytes) (pre post : List Operation) (t1 : Trees) (ch : Changes) (rs : List OpResult)
    (d : Document) (hk : ∀ o ∈ pre ++ ⟨c, .update h x⟩ :: post, o.collection ∈ s.collections)
    (hpre : runOps s db.trees ⟨[], []⟩ pre = .ok (t1, ch, rs))
    (hd : (t1.docs c).get h.id = some d) (hstale : h.revision ≠ d.header.revision) :
    applyToRoots s db tid (pre ++ ⟨c, .update h x⟩ :: post) = (.error (.conflict c d.header), db) := by
  refine apply_fail hk hpre ?_
  have : ¬ (some h.revision = none ∨ some h.revision = some d.header.revision) := by
    simp [hstale]
  simp only [execOp, execUpdate, hd, updateStored, if_neg this]

/-- **C21.** The same for deletes. -/
theorem C21_stale_delete_rejected (s : Schema) (db : Db) (tid : Nat) (c : QName) (h : Header)
    (pre post : List Operation) (t1 : Trees) (ch : Changes) (rs : List OpResult)
    (d : Document) (hk : ∀ o ∈ pre ++ ⟨c, .delete h⟩ :: post, o.collection ∈ s.collections)
    (hpre : runOps s db.trees ⟨[], []⟩ pre = .ok (t1, ch, rs))
    (hd : (t1.docs c).get h.id = some d) (hstale : h.revision ≠ d.header.revision) :
    applyToRoots s db tid (pre ++ ⟨c, .delete h⟩ :: post) = (.error (.conflict c h), db) := by
  refine apply_fail hk hpre ?_
  have : ¬ d.header = h := fun e => hstale (by rw [e])
  simp only [execOp, execDelete, hd, if_neg this]

theorem C21_stale_update_single (s : Schema) (db : Db) (tid : Nat) (c : QName) (h : Header)
    (x : Bytes) (d : Document) (hk : c ∈ s.collections) (hd : getDoc db c h.id = some d)
    (hstale : h.revision ≠ d.header.revision) :
    applyToRoots s db tid [⟨c, .update h x⟩] = (.error (.conflict c d.header), db) :=
  C21_stale_update_rejected s db tid c h x [] [] db.trees _ [] d (by simp [hk]) rfl hd hstale

theorem C21_stale_delete_single (s : Schema) (db : Db) (tid : Nat) (c : QName) (h : Header)
    (d : Document) (hk : c ∈ s.collections) (hd : getDoc db c h.id = some d)
    (hstale : h.revision ≠ d.header.revision) :
    applyToRoots s db tid [⟨c, .delete h⟩] = (.error (.conflict c h), db) :=
  C21_stale_delete_rejected s db tid c h [] [] db.trees _ [] d (by simp [hk]) rfl hd hstale

theorem recordChange_first (o : Option (QName × Bytes × Bool)) :
    ∃ ch, recordChange ⟨[], []⟩ o = .ok ch := by
  match o with
  | none => exact ⟨_, rfl⟩
  | some (c, id, del) => exact ⟨⟨[c], [⟨0, id, del⟩]⟩, by simp [recordChange]⟩

/-- A transaction of one operation does what the operation does. -/
theorem apply_single {s db tid op} (hk : op.collection ∈ s.collections) :
    (∃ t' r ch, execOp s db.trees op = .ok (t', r) ∧
      applyToRoots s db tid [op] =
        (.ok [r], ⟨invalidateChanged s ch t', db.log ++ [(tid, some ch)]⟩)) ∨
    (∃ e, execOp s db.trees op = .error e ∧ applyToRoots s db tid [op] = (.error e, db)) := by
  have hk' : collectionsKnown s [op] = true := by simp [collectionsKnown, hk]
  unfold applyToRoots prepare
  rw [if_pos hk', runOps]
  cases hx : execOp s db.trees op with
  | error e => right; exact ⟨e, rfl, rfl⟩
  | ok p =>
    obtain ⟨t', r⟩ := p
    left
    obtain ⟨ch, hch⟩ := recordChange_first (changedBy r)
    exact ⟨t', r, ch, rfl, by simp [hch, runOps]⟩

/-- What a successful write stored and reported. -/
theorem execUpdate_stored {s c t id check x t' r S} (hS : CollisionFree s.digest S)
    (hwf : DocsWF s.digest S t.docs) (hx : S x) (h : execUpdate s c t id check x = .ok (t', r)) :
    ∃ hd, r = .updated c hd ∧ (t'.docs c).get id = some ⟨hd, x⟩ ∧
      (∀ c' id', ¬ (c' = c ∧ id' = id) → (t'.docs c').get id' = (t.docs c').get id') ∧
      (match (t.docs c).get id with
        | none => hd.revision.id = 0
        | some d => if x = d.contents then hd = d.header ∧ t' = t
            else hd.revision.id = d.header.revision.id + 1) := by
  unfold execUpdate at h
  have frame : ∀ {d t2}, storeDoc s c t id d = .ok t2 → (t2.docs c).get id = some d ∧
      ∀ c' id', ¬ (c' = c ∧ id' = id) → (t2.docs c').get id' = (t.docs c').get id' := by
    intro d t2 hst
    rw [(storeDoc_ok hst).1]
    refine ⟨by simp, ?_⟩
    intro c' id' hne
    rw [get_upd]
    split
    · rename_i hc
      subst hc
      exact OMap.get_set_ne _ (fun e => hne ⟨rfl, e.symm⟩) _
    · rfl
  cases hg : (t.docs c).get id with
  | none =>
    rw [hg] at h
    simp only [updateStored] at h
    split at h
    · cases h
    · rename_i hh; split at hh <;> cases hh
    · rename_i d hd hh
      split at hh
      · cases hh
        split at h
        · cases h
        · rename_i t2 hst
          cases h
          exact ⟨_, rfl, (frame hst).1, (frame hst).2, rfl⟩
      · cases hh
  | some d =>
    obtain ⟨hid, hsha, hSd⟩ := hwf _ _ _ hg
    rw [hg] at h
    simp only [updateStored] at h
    by_cases hchk : check = none ∨ check = some d.header.revision
    · rw [if_pos hchk] at h
      by_cases hsame : s.digest x = d.header.revision.sha
      · have hceq : x = d.contents := hS _ _ hx hSd (hsame.trans hsha)
        simp only [Revision.next, hsame, if_true] at h
        cases h
        refine ⟨_, rfl, ?_, fun _ _ _ => rfl, ?_⟩
        · rw [hg, hceq]
        · simp [hceq]
      · have hcne : x ≠ d.contents := fun e => hsame (by rw [e, hsha])
        simp only [Revision.next, if_neg hsame] at h
        by_cases hov : d.header.revision.id + 1 < 2 ^ 32
        · simp only [if_pos hov] at h
          split at h
          · cases h
          · rename_i t2 hst
            cases h
            refine ⟨_, rfl, (frame hst).1, (frame hst).2, ?_⟩
            simp [hcne]
        · simp only [if_neg hov] at h; cases h
    · rw [if_neg hchk] at h; cases h

/-- **C21.** With the current revision, an update succeeds (when no eager view can object and the
revision counter is not exhausted): afterwards the document has the new contents, and all other
documents are as before. -/
theorem C21_current_update_succeeds (s : Schema) (S : Bytes → Prop) (hS : CollisionFree s.digest S)
    (db : Db) (hr : Reachable s S db) (tid : Nat) (c : QName) (h : Header) (x : Bytes) (d : Document)
    (hk : c ∈ s.collections) (hn : NoEager s c) (hx : S x) (hd : getDoc db c h.id = some d)
    (hcur : h.revision = d.header.revision) (hov : d.header.revision.id + 1 < 2 ^ 32) :
    ∃ hd' db', applyToRoots s db tid [⟨c, .update h x⟩] = (.ok [.updated c hd'], db') ∧
      getDoc db' c h.id = some ⟨hd', x⟩ ∧
      ∀ c' id', ¬ (c' = c ∧ id' = h.id) → getDoc db' c' id' = getDoc db c' id' := by
  rcases apply_single (s := s) (db := db) (tid := tid) (op := ⟨c, .update h x⟩) hk with
    ⟨t', r, ch, hex, happ⟩ | ⟨e, hex, happ⟩
  · obtain ⟨hd', rfl, h1, h2, -⟩ := execUpdate_stored hS (hr.wf hS) hx hex
    exact ⟨hd', _, happ, h1, h2⟩
  · exfalso
    have hwf := hr.wf hS
    simp only [execOp, execUpdate] at hex
    rw [show (db.trees.docs c).get h.id = some d from hd] at hex
    simp only [updateStored, hcur, or_true, if_true] at hex
    by_cases hsame : s.digest x = d.header.revision.sha
    · simp [Revision.next, hsame] at hex
    · simp only [Revision.next, if_neg hsame, if_pos hov] at hex
      split at hex
      · rename_i hst; exact (storeDoc_err hst).2 hn
      · cases hex

/-- **C21.** With the current header, a delete succeeds and the document is gone. -/
theorem C21_current_delete_succeeds (s : Schema) (db : Db) (tid : Nat) (c : QName) (d : Document)
    (hk : c ∈ s.collections) (hn : NoEager s c) (hd : getDoc db c d.header.id = some d) :
    ∃ db', applyToRoots s db tid [⟨c, .delete d.header⟩] = (.ok [.deleted c d.header.id], db') ∧
      getDoc db' c d.header.id = none ∧
      ∀ c' id', ¬ (c' = c ∧ id' = d.header.id) → getDoc db' c' id' = getDoc db c' id' := by
  have hex : execOp s db.trees ⟨c, .delete d.header⟩ =
      .ok ({ db.trees with docs := upd db.trees.docs c ((db.trees.docs c).remove d.header.id) },
        .deleted c d.header.id) := by
    simp only [execOp, execDelete]
    rw [show (db.trees.docs c).get d.header.id = some d from hd]
    simp only [if_true]
    rw [updateEagerViews_none hn]
  rcases apply_single (s := s) (db := db) (tid := tid) (op := ⟨c, .delete d.header⟩) hk with
    ⟨t', r, ch, hex', happ⟩ | ⟨e, hex', happ⟩
  · rw [hex] at hex'
    cases hex'
    refine ⟨_, happ, ?_, ?_⟩
    · simp [getDoc, invalidateChanged]
    · intro c' id' hne
      simp only [getDoc, invalidateChanged]
      rw [get_upd]
      split
      · rename_i hc
        subst hc
        exact OMap.get_remove_ne _ (fun e => hne ⟨rfl, e.symm⟩)
      · rfl
  · rw [hex] at hex'; cases hex'

/-- A database holding document [7] at revision 1. -/
def exDb : Db := (serveAll exSchema .empty
  [.transaction 1 [⟨exC, .insert (some [7]) [1]⟩], .transaction 2 [⟨exC, .overwrite [7] [2]⟩]]).2

theorem exDb_reachable : Reachable exSchema (fun _ => True) exDb :=
  .transaction 2 [⟨exC, .overwrite [7] [2]⟩]
    (.transaction 1 [⟨exC, .insert (some [7]) [1]⟩] .empty (fun _ _ _ _ => trivial))
    (fun _ _ _ _ => trivial)

example : getDoc exDb exC [7] = some ⟨⟨[7], ⟨1, [2]⟩⟩, [2]⟩ := rfl
example : NoEager exSchema exC := by intro v hv; cases hv
/-- the stale header of revision 0 is rejected, the current one accepted -/
example : (applyToRoots exSchema exDb 3 [⟨exC, .update ⟨[7], ⟨0, [1]⟩⟩ [9]⟩]).1 =
    .error (.conflict exC ⟨[7], ⟨1, [2]⟩⟩) := rfl
example : (applyToRoots exSchema exDb 3 [⟨exC, .update ⟨[7], ⟨1, [2]⟩⟩ [9]⟩]).1 =
    .ok [.updated exC ⟨[7], ⟨2, [9]⟩⟩] := rfl

/-! ## C23 -/

/-- **C23.** Every successful update or overwrite, anywhere in a transaction on a reachable
database: a missing document starts at revision 0; identical contents leave everything unchanged;
different contents increase the revision by exactly one.  The reported header is the stored one. -/
theorem C23_revision_step (s : Schema) (S : Bytes → Prop) (hS : CollisionFree s.digest S)
    (t t' : Trees) (hwf : DocsWF s.digest S t.docs) (c : QName) (id x : Bytes) (hx : S x)
    (cmd : Command) (hcmd : cmd = .overwrite id x ∨ ∃ h : Header, h.id = id ∧ cmd = .update h x)
    (r : OpResult) (hok : execOp s t ⟨c, cmd⟩ = .ok (t', r)) :
    ∃ h, r = .updated c h ∧ (t'.docs c).get id = some ⟨h, x⟩ ∧
      match (t.docs c).get id with
      | none => h.revision.id = 0
      | some d => if x = d.contents then h = d.header ∧ t' = t
          else h.revision.id = d.header.revision.id + 1 := by
  rcases hcmd with rfl | ⟨h, rfl, rfl⟩
  · obtain ⟨hd, h1, h2, -, h4⟩ := execUpdate_stored hS hwf hx hok
    exact ⟨hd, h1, h2, h4⟩
  · obtain ⟨hd, h1, h2, -, h4⟩ := execUpdate_stored hS hwf hx hok
    exact ⟨hd, h1, h2, h4⟩

/-- **C23.** Inserts start at revision 0 and report the stored header. -/
theorem C23_insert_starts_at_zero (s : Schema) (t t' : Trees) (c : QName) (oid : Option Bytes)
    (x : Bytes) (r : OpResult) (hok : execOp s t ⟨c, .insert oid x⟩ = .ok (t', r)) :
    ∃ h, r = .updated c h ∧ h.revision.id = 0 ∧ (∀ id, oid = some id → h.id = id) ∧
      (t.docs c).get h.id = none ∧ (t'.docs c).get h.id = some ⟨h, x⟩ ∧
      ∀ c' id', ¬ (c' = c ∧ id' = h.id) → (t'.docs c').get id' = (t.docs c').get id' := by
  simp only [execOp, execInsert] at hok
  split at hok
  · cases hok
  · rename_i i hi
    split at hok
    · cases hok
    · rename_i hg
      split at hok
      · cases hok
      · rename_i t2 hst
        cases hok
        refine ⟨_, rfl, rfl, ?_, hg, ?_, ?_⟩
        · intro id hid; subst hid; simp at hi; exact hi.symm
        · rw [(storeDoc_ok hst).1]; simp [Document.new]
        · intro c' id' hne
          rw [(storeDoc_ok hst).1, get_upd]
          split
          · rename_i hc
            subst hc
            exact OMap.get_set_ne _ (fun e => hne ⟨rfl, e.symm⟩) _
          · rfl

/-- How often the contents change along a sequence of writes. -/
def contentChanges : List Bytes → Nat
  | x :: y :: r => (if x = y then 0 else 1) + contentChanges (y :: r)
  | _ => 0

/-- Overwrite one document again and again, each in its own transaction. -/
def overwriteAll (s : Schema) (c : QName) (id : Bytes) : Db → List (Nat × Bytes) → Db
  | db, [] => db
  | db, (tid, x) :: xs => overwriteAll s c id (applyToRoots s db tid [⟨c, .overwrite id x⟩]).2 xs

theorem overwrite_ok {s S db tid c id x} (hS : CollisionFree s.digest S)
    (hwf : DocsWF s.digest S db.trees.docs) (hk : c ∈ s.collections) (hn : NoEager s c) (hx : S x)
    (hov : ∀ d, getDoc db c id = some d → d.header.revision.id + 1 < 2 ^ 32) :
    ∃ h, getDoc (applyToRoots s db tid [⟨c, .overwrite id x⟩]).2 c id = some ⟨h, x⟩ ∧
      match getDoc db c id with
      | none => h.revision.id = 0
      | some d => h.revision.id = d.header.revision.id + (if x = d.contents then 0 else 1) := by
  rcases apply_single (s := s) (db := db) (tid := tid) (op := ⟨c, .overwrite id x⟩) hk with
    ⟨t', r, ch, hex, happ⟩ | ⟨e, hex, happ⟩
  · obtain ⟨hd, rfl, h1, -, h4⟩ := execUpdate_stored hS hwf hx hex
    rw [happ]
    refine ⟨hd, h1, ?_⟩
    show match (db.trees.docs c).get id with | none => _ | some d => _
    cases hg : (db.trees.docs c).get id with
    | none => rw [hg] at h4; exact h4
    | some d =>
      rw [hg] at h4
      simp only at h4 ⊢
      split at h4
      · rename_i he; rw [if_pos he, h4.1]; rfl
      · rename_i he; rw [if_neg he]; exact h4
  · exfalso
    simp only [execOp, execUpdate] at hex
    cases hg : (db.trees.docs c).get id with
    | none =>
      rw [hg] at hex
      simp only [updateStored, if_true] at hex
      split at hex
      · rename_i hst; exact (storeDoc_err hst).2 hn
      · cases hex
    | some d =>
      rw [hg] at hex
      simp only [updateStored, true_or, if_true] at hex
      by_cases hsame : s.digest x = d.header.revision.sha
      · simp [Revision.next, hsame] at hex
      · simp only [Revision.next, if_neg hsame, if_pos (hov d hg)] at hex
        split at hex
        · rename_i hst; exact (storeDoc_err hst).2 hn
        · cases hex

/-- **C23.** After any sequence of at most 2^32 overwrites of a new document, its contents are the
last ones written and its revision is the number of times the contents changed. -/
theorem C23_revision_counts_changes (s : Schema) (S : Bytes → Prop) (hS : CollisionFree s.digest S)
    (db : Db) (hr : Reachable s S db) (c : QName) (hk : c ∈ s.collections) (hn : NoEager s c)
    (id : Bytes) (hnew : getDoc db c id = none) (w : List (Nat × Bytes)) (tid : Nat) (x : Bytes)
    (hw : ∀ p ∈ w ++ [(tid, x)], S p.2) (hlen : w.length < 2 ^ 32) :
    ∃ d, getDoc (overwriteAll s c id db (w ++ [(tid, x)])) c id = some d ∧ d.contents = x ∧
      d.header.revision.id = contentChanges ((w ++ [(tid, x)]).map (·.2)) := by
  -- the general statement, from a document at revision `n` with contents `y`
  have gen : ∀ (w : List (Nat × Bytes)) (db : Db) (d : Document) (tid : Nat) (x : Bytes),
      Reachable s S db → getDoc db c id = some d → (∀ p ∈ w ++ [(tid, x)], S p.2) →
      d.header.revision.id + w.length + 1 < 2 ^ 32 →
      ∃ d', getDoc (overwriteAll s c id db (w ++ [(tid, x)])) c id = some d' ∧ d'.contents = x ∧
        d'.header.revision.id = d.header.revision.id +
          contentChanges (d.contents :: (w ++ [(tid, x)]).map (·.2)) := by
    intro w
    induction w with
    | nil =>
      intro db d tid x hr hd hw hb
      obtain ⟨h, h1, h2⟩ := overwrite_ok (tid := tid) (id := id) hS (hr.wf hS) hk hn (hw (tid, x) (by simp))
        (by intro d' hd'; rw [hd] at hd'; cases hd'; simp at hb; omega)
      rw [hd] at h2
      refine ⟨⟨h, x⟩, h1, rfl, ?_⟩
      simp only at h2
      simp only [List.nil_append, List.map_cons, List.map_nil, contentChanges, h2]
      by_cases e : x = d.contents
      · simp [e]
      · have e' : ¬ d.contents = x := fun h => e h.symm
        simp [e, e']
    | cons p w ih =>
      intro db d tid x hr hd hw hb
      obtain ⟨tid0, y⟩ := p
      obtain ⟨h, h1, h2⟩ := overwrite_ok (tid := tid0) (id := id) hS (hr.wf hS) hk hn (hw (tid0, y) (by simp))
        (by intro d' hd'; rw [hd] at hd'; cases hd'; simp at hb; omega)
      rw [hd] at h2
      simp only at h2
      have hr' : Reachable s S (applyToRoots s db tid0 [⟨c, .overwrite id y⟩]).2 :=
        .transaction _ _ hr (by
          intro op hop z hz
          simp at hop; subst hop
          simp [Command.contents] at hz; subst hz; exact hw (tid0, y) (by simp))
      obtain ⟨d', g1, g2, g3⟩ := ih _ ⟨h, y⟩ tid x hr' h1 (fun p hp => hw p (by simp at hp ⊢; right; exact hp))
        (by
          simp only [h2]
          have : (if y = d.contents then 0 else 1) ≤ 1 := by split <;> omega
          simp at hb; omega)
      refine ⟨d', g1, g2, ?_⟩
      rw [g3]
      simp only [h2, List.cons_append, List.map_cons, contentChanges]
      by_cases e : y = d.contents
      · simp [e]
      · have e' : ¬ d.contents = y := fun h => e h.symm
        simp [e, e']; omega
  cases w with
  | nil =>
    obtain ⟨h, h1, h2⟩ := overwrite_ok (tid := tid) (id := id) hS (hr.wf hS) hk hn (hw (tid, x) (by simp))
      (by intro d' hd'; rw [hnew] at hd'; cases hd')
    rw [hnew] at h2
    exact ⟨⟨h, x⟩, h1, rfl, by simpa [contentChanges] using h2⟩
  | cons p w =>
    obtain ⟨tid0, y⟩ := p
    obtain ⟨h, h1, h2⟩ := overwrite_ok (tid := tid0) (id := id) hS (hr.wf hS) hk hn (hw (tid0, y) (by simp))
      (by intro d' hd'; rw [hnew] at hd'; cases hd')
    rw [hnew] at h2
    simp only at h2
    have hr' : Reachable s S (applyToRoots s db tid0 [⟨c, .overwrite id y⟩]).2 :=
      .transaction _ _ hr (by
        intro op hop z hz
        simp at hop; subst hop
        simp [Command.contents] at hz; subst hz; exact hw (tid0, y) (by simp))
    obtain ⟨d', g1, g2, g3⟩ := gen w _ ⟨h, y⟩ tid x hr' h1 (fun p hp => hw p (by simp at hp ⊢; right; exact hp))
      (by simp at hlen; simp only [h2]; omega)
    exact ⟨d', g1, g2, by rw [g3]; simp [h2]⟩

example : contentChanges [[1], [1], [2], [1]] = 2 := by decide
example : (getDoc (overwriteAll exSchema exC [7] .empty [(1, [1]), (2, [1]), (3, [2]), (4, [1])])
    exC [7]).map (·.header.revision.id) = some 2 := rfl

/-! ## C27 -/

/-- **C27.** If the session may not execute one of the operations, the transaction fails and nothing
changes. -/
theorem C27_denied_changes_nothing (s : Schema) (name : String) (perm : Resource → DocAction → Bool)
    (db : Db) (tid : Nat) (ops : List Operation) (op : Operation) (hop : op ∈ ops)
    (hden : perm (required name op).1 (required name op).2 = false) :
    applyTransaction s name (some perm) db tid ops = (.error .permissionDenied, db) := by
  unfold applyTransaction
  rw [if_neg]
  intro h
  have := List.all_eq_true.mp h op hop
  simp [allowed, hden] at this

/-- **C27.** Whatever a transaction changed, or reported as done, every one of its operations was
permitted to the session. -/
theorem C27_effects_need_permission (s : Schema) (name : String) (perm : Resource → DocAction → Bool)
    (db : Db) (tid : Nat) (ops : List Operation)
    (h : (applyTransaction s name (some perm) db tid ops).2 ≠ db ∨
      ∃ rs, (applyTransaction s name (some perm) db tid ops).1 = .ok rs) :
    ∀ op ∈ ops, perm (required name op).1 (required name op).2 = true := by
  intro op hop
  cases hp : perm (required name op).1 (required name op).2 with
  | true => rfl
  | false =>
    rw [C27_denied_changes_nothing s name perm db tid ops op hop hp] at h
    rcases h with h | ⟨rs, h⟩
    · exact absurd rfl h
    · cases h

/-- **C27.** The permission asked for an operation is for the very document (or collection) and the
very action it performs. -/
theorem C27_required_matches (name : String) (c : QName) (h : Header) (id x : Bytes)
    (oid : Option Bytes) (rev : Option Revision) :
    required name ⟨c, .insert oid x⟩ = (.collection name c, .insert) ∧
    required name ⟨c, .update h x⟩ = (.document name c h.id, .update) ∧
    required name ⟨c, .overwrite id x⟩ = (.document name c id, .overwrite) ∧
    required name ⟨c, .delete h⟩ = (.document name c h.id, .delete) ∧
    required name ⟨c, .check id rev⟩ = (.document name c id, .get) := ⟨rfl, rfl, rfl, rfl, rfl⟩

/-- **C27.** With permission for every operation (or without a session) the transaction runs. -/
theorem C27_permitted_runs (s : Schema) (name : String) (sess : Session) (db : Db) (tid : Nat)
    (ops : List Operation)
    (h : ∀ perm, sess = some perm → ∀ op ∈ ops, perm (required name op).1 (required name op).2 = true) :
    applyTransaction s name sess db tid ops = applyToRoots s db tid ops := by
  unfold applyTransaction
  rw [if_pos]
  rw [List.all_eq_true]
  intro op hop
  cases sess with
  | none => rfl
  | some perm => exact h perm rfl op hop

/-- A session that may insert but not delete: the transaction with both is refused entirely. -/
example : applyTransaction exSchema "db" (some fun _ a => a == .insert) exDb 3
    [⟨exC, .insert (some [8]) [1]⟩, ⟨exC, .delete ⟨[7], ⟨1, [2]⟩⟩⟩] = (.error .permissionDenied, exDb) :=
  C27_denied_changes_nothing _ _ _ _ _ _ ⟨exC, .delete ⟨[7], ⟨1, [2]⟩⟩⟩ (by simp) rfl
example : (applyTransaction exSchema "db" (some fun _ a => a == .insert) exDb 3
    [⟨exC, .insert (some [8]) [1]⟩]).1 = .ok [.updated exC ⟨[8], ⟨0, [1]⟩⟩] := rfl

end Bonsai.Store
