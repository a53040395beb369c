import Verif.Store.C25

/-!
# C20: transactions are all-or-nothing, also when several run at once and when the process crashes

Small-step model of `apply_transaction_to_roots` (database.rs:304-370) on top of nebari's
transactions.  Assumed of nebari (external crate): a transaction holds exclusive locks on all trees
it was opened with, its changes stay in its private working copy until `commit`, `commit` publishes
them together with the log entry in one durable step, and dropping the transaction (error return, or
crash) discards them.  Simplified: the transaction id is drawn at the commit.
-/
set_option linter.unusedSimpArgs false
set_option linter.unusedVariables false

namespace Bonsai.Store
open Bonsai Bonsai.Names

/-! ## Sequential statements -/

/-- The operations executed one after the other, all successfully. -/
inductive Chain (s : Schema) : Trees → List Operation → Trees → List OpResult → Prop
  | nil (t) : Chain s t [] t []
  | cons {t op t1 r ops t2 rs} (h : execOp s t op = .ok (t1, r)) (hs : Chain s t1 ops t2 rs) :
      Chain s t (op :: ops) t2 (r :: rs)

theorem runOps_chain {s} : ∀ {ops t ch t' ch' rs}, runOps s t ch ops = .ok (t', ch', rs) →
    Chain s t ops t' rs := by
  intro ops
  induction ops with
  | nil => intro t ch t' ch' rs h; simp only [runOps] at h; cases h; exact .nil _
  | cons op ops ih =>
    intro t ch t' ch' rs h
    rw [runOps] at h
    split at h
    · cases h
    · rename_i hex
      split at h
      · cases h
      · split at h
        · cases h
        · rename_i hrun
          cases h
          exact .cons hex (ih hrun)

/-- **C20.** If operation number `pre.length` fails, on the state the operations before it left,
then the transaction fails with that error and nothing changes: no document, no view, no log entry.-/
theorem C20_failure_changes_nothing (s : Schema) (db : Db) (tid : Nat) (pre post : List Operation)
    (op : Operation) (t1 : Trees) (ch : Changes) (rs : List OpResult) (e : Err)
    (hk : ∀ o ∈ pre ++ op :: post, o.collection ∈ s.collections)
    (hpre : runOps s db.trees ⟨[], []⟩ pre = .ok (t1, ch, rs)) (he : execOp s t1 op = .error e) :
    applyToRoots s db tid (pre ++ op :: post) = (.error e, db) := apply_fail hk hpre he

/-- **C20.** Whenever a transaction returns an error, the database is exactly what it was; whenever
it returns success, every operation succeeded, the results are those of executing the operations in
order, and the documents and eager views are those that execution left. -/
theorem C20_all_or_nothing (s : Schema) (db : Db) (tid : Nat) (ops : List Operation) :
    match applyToRoots s db tid ops with
    | (.error _, db') => db' = db
    | (.ok rs, db') => ∃ t ch, Chain s db.trees ops t rs ∧ db'.trees.docs = t.docs ∧
        db'.trees.entries = t.entries ∧ db'.trees.docMap = t.docMap ∧
        db'.log = db.log ++ [(tid, some ch)] := by
  unfold applyToRoots
  cases hp : prepare s db.trees ops with
  | error e => rfl
  | ok p =>
    obtain ⟨t, ch, rs⟩ := p
    unfold prepare at hp
    split at hp
    · split at hp
      · cases hp
      · rename_i t0 ch0 rs0 hrun
        cases hp
        exact ⟨t0, ch, runOps_chain hrun, rfl, rfl, rfl, rfl⟩
    · cases hp

/-- **C20.** Conversely, if all operations succeed in order (and there are at most 65536 collections
in the schema) the transaction commits. -/
theorem C20_success_commits (s : Schema) (hcol : s.collections.length ≤ 65536) (db : Db) (tid : Nat)
    (ops : List Operation) (hk : ∀ op ∈ ops, op.collection ∈ s.collections) (t : Trees)
    (rs : List OpResult) (h : Chain s db.trees ops t rs) :
    (applyToRoots s db tid ops).1 = .ok rs := by
  have gen : ∀ {ops t t' rs}, Chain s t ops t' rs → ∀ (all : List Operation) (ch : Changes),
      (∀ op ∈ ops, op ∈ all) → ChangesOf all ch →
      (∀ op ∈ all, op.collection ∈ s.collections) → ∃ ch', runOps s t ch ops = .ok (t', ch', rs) := by
    intro ops t t' rs hc
    induction hc with
    | nil => intro all ch _ _ _; exact ⟨ch, rfl⟩
    | cons hex hs ih =>
      rename_i t op t1 r ops t2 rs
      intro all ch hsub hch hall
      have ho : ∀ c id del, changedBy r = some (c, id, del) → ∃ op ∈ all, op.collection = c := by
        intro c id del hc
        exact ⟨op, hsub _ List.mem_cons_self, (changedBy_collection hex hc).symm⟩
      cases hrec : recordChange ch (changedBy r) with
      | error e =>
        exfalso
        obtain ⟨-, l, hn, hl, hcs⟩ := recordChange_err hch ho hrec
        have hsub : l ⊆ s.collections := by
          intro c hc; obtain ⟨o, ho, rfl⟩ := hcs c hc; exact hall o ho
        have := nodup_subset_length hn hsub
        omega
      | ok ch1 =>
        obtain ⟨ch', hrun⟩ := ih all ch1 (fun o h => hsub o (List.mem_cons_of_mem _ h))
          (recordChange_ok hch ho hrec) hall
        exact ⟨ch', by simp only [runOps, hex, hrec, hrun]⟩
  obtain ⟨ch', hrun⟩ := gen h ops ⟨[], []⟩ (fun _ h => h) ⟨List.nodup_nil, by simp, by simp⟩ hk
  unfold applyToRoots prepare
  rw [if_pos (collectionsKnown_iff.mpr hk), hrun]

/-! ## Locality: a transaction reads and writes only the trees of its collections -/

/-- The trees of the collections in `L` (documents and views) from `t`, all others from `u`. -/
def merge (L : List QName) (t u : Trees) : Trees where
  docs c := if c ∈ L then t.docs c else u.docs c
  entries v := if v.collection ∈ L then t.entries v else u.entries v
  docMap v := if v.collection ∈ L then t.docMap v else u.docMap v
  invalidated v := if v.collection ∈ L then t.invalidated v else u.invalidated v

theorem trees_ext {t u : Trees} (h1 : t.docs = u.docs) (h2 : t.entries = u.entries)
    (h3 : t.docMap = u.docMap) (h4 : t.invalidated = u.invalidated) : t = u := by
  cases t; cases u; simp_all

theorem merge_self (L : List QName) (t : Trees) : merge L t t = t := by
  apply trees_ext <;> funext x <;> simp [merge]

theorem merge_merge_left (L : List QName) (t u w : Trees) : merge L (merge L t u) w = merge L t w := by
  apply trees_ext <;> funext x <;> simp only [merge] <;> split <;> simp_all

theorem merge_docs {L : List QName} {t u : Trees} {c : QName} (h : c ∈ L) :
    (merge L t u).docs c = t.docs c := by simp [merge, h]

theorem upd_if {α β : Type} [DecidableEq α] (P : α → Prop) [DecidablePred P] (f g : α → β) (a : α)
    (b : β) (h : P a) : upd (fun x => if P x then f x else g x) a b =
      fun x => if P x then upd f a b x else g x := by
  funext x
  by_cases hx : x = a
  · subst hx; simp [h]
  · rw [upd_ne _ _ hx, upd_ne _ _ hx]

theorem merge_set_docs {L : List QName} {t u : Trees} {c : QName} (h : c ∈ L) (m : OMap Document) :
    { merge L t u with docs := upd (merge L t u).docs c m } =
      merge L { t with docs := upd t.docs c m } u := by
  apply trees_ext
  · exact upd_if (· ∈ L) t.docs u.docs c m h
  · rfl
  · rfl
  · rfl

theorem updateEagerView_merge {L v id t u} (h : v.name.collection ∈ L) :
    updateEagerView v id (merge L t u) = (updateEagerView v id t).map fun t' => merge L t' u := by
  unfold updateEagerView
  have h1 : (merge L t u).docs v.name.collection = t.docs v.name.collection := merge_docs h
  have h2 : (merge L t u).entries v.name = t.entries v.name := by simp [merge, h]
  have h3 : (merge L t u).docMap v.name = t.docMap v.name := by simp [merge, h]
  rw [h1, h2, h3]
  split
  · rfl
  · simp only [Except.map]
    congr 1
    apply trees_ext
    · rfl
    · exact upd_if (fun v : VName => v.collection ∈ L) t.entries u.entries _ _ h
    · exact upd_if (fun v : VName => v.collection ∈ L) t.docMap u.docMap _ _ h
    · rfl

theorem updateViewList_merge {L id u} : ∀ {vs t}, (∀ v ∈ vs, v.name.collection ∈ L) →
    updateViewList vs id (merge L t u) = (updateViewList vs id t).map fun t' => merge L t' u := by
  intro vs
  induction vs with
  | nil => intro t _; rfl
  | cons v vs ih =>
    intro t h
    rw [updateViewList, updateViewList, updateEagerView_merge (h v List.mem_cons_self)]
    cases updateEagerView v id t with
    | error e => rfl
    | ok t1 => exact ih fun v hv => h v (List.mem_cons_of_mem _ hv)

theorem updateEagerViews_merge {s c L id t u} (h : c ∈ L) :
    updateEagerViews s c id (merge L t u) = (updateEagerViews s c id t).map fun t' => merge L t' u := by
  apply updateViewList_merge
  intro v hv
  simp [Schema.viewsIn] at hv
  rw [hv.2.2]; exact h

theorem storeDoc_merge {s c L id d t u} (h : c ∈ L) :
    storeDoc s c (merge L t u) id d = (storeDoc s c t id d).map fun t' => merge L t' u := by
  unfold storeDoc
  rw [merge_set_docs h, merge_docs h, updateEagerViews_merge h]

theorem execOp_merge {s L t u op} (h : op.collection ∈ L) :
    execOp s (merge L t u) op = (execOp s t op).map fun p => (merge L p.1 u, p.2) := by
  obtain ⟨c, cmd⟩ := op
  have hd : (merge L t u).docs c = t.docs c := merge_docs h
  have hupd : ∀ {id chk x}, execUpdate s c (merge L t u) id chk x =
      (execUpdate s c t id chk x).map fun p => (merge L p.1 u, p.2) := by
    intro id chk x
    unfold execUpdate
    rw [hd]
    split
    · rfl
    · rfl
    · rw [storeDoc_merge h]
      cases storeDoc s c t id _ <;> rfl
  cases cmd with
  | insert oid x =>
    simp only [execOp, execInsert, hd]
    split
    · rfl
    · split
      · rfl
      · rw [storeDoc_merge h]
        cases storeDoc s c t _ _ <;> rfl
  | update hh x => exact hupd
  | overwrite i x => exact hupd
  | delete hh =>
    simp only [execOp, execDelete]
    rw [hd]
    split
    · rfl
    · split
      · rw [merge_set_docs h, updateEagerViews_merge h]
        cases updateEagerViews s c hh.id _ <;> rfl
      · rfl
  | check i rv =>
    simp only [execOp, execCheck, hd]
    split
    · rfl
    · split
      · split <;> rfl
      · rfl

theorem runOps_merge {s L u} : ∀ {ops t ch}, (∀ op ∈ ops, op.collection ∈ L) →
    runOps s (merge L t u) ch ops = (runOps s t ch ops).map fun p => (merge L p.1 u, p.2) := by
  intro ops
  induction ops with
  | nil => intro t ch _; rfl
  | cons op ops ih =>
    intro t ch h
    rw [runOps, runOps, execOp_merge (h op List.mem_cons_self)]
    cases execOp s t op with
    | error e => rfl
    | ok p =>
      obtain ⟨t1, r⟩ := p
      simp only [Except.map]
      cases recordChange ch (changedBy r) with
      | error e => rfl
      | ok ch1 =>
        simp only
        rw [ih fun o ho => h o (List.mem_cons_of_mem _ ho)]
        cases runOps s t1 ch1 ops <;> rfl

theorem invalidateDoc_merge {s : Schema} {c : QName} {L : List QName} {id : Bytes} {f g : VName → OMap Unit} (h : c ∈ L) :
    invalidateDoc s c id (fun v => if v.collection ∈ L then f v else g v) =
      fun v => if v.collection ∈ L then invalidateDoc s c id f v else g v := by
  unfold invalidateDoc
  have : ∀ (vs : List View) (f : VName → OMap Unit), (∀ v ∈ vs, v.name.collection ∈ L) →
      vs.foldl (fun inv v => upd inv v.name ((inv v.name).set id ()))
        (fun v => if v.collection ∈ L then f v else g v) =
      fun v => if v.collection ∈ L then
        vs.foldl (fun inv v => upd inv v.name ((inv v.name).set id ())) f v else g v := by
    intro vs
    induction vs with
    | nil => intro f _; rfl
    | cons v vs ih =>
      intro f hv
      have hm := hv v List.mem_cons_self
      rw [List.foldl_cons, List.foldl_cons,
        upd_if (fun v : VName => v.collection ∈ L) f g v.name _ hm]
      simp only [if_pos hm]
      exact ih _ fun w hw => hv w (List.mem_cons_of_mem _ hw)
  apply this
  intro v hv
  simp [Schema.viewsIn] at hv
  rw [hv.2.2]; exact h

theorem invalidateChanged_merge {s L t u ch} (h : ∀ c ∈ ch.collections, c ∈ L) :
    invalidateChanged s ch (merge L t u) = merge L (invalidateChanged s ch t) u := by
  apply trees_ext
  · rfl
  · rfl
  · rfl
  · show _ = fun v : VName => if v.collection ∈ L then _ else _
    unfold invalidateChanged
    have : ∀ (ds : List ChangedDocument) (f : VName → OMap Unit),
        ds.foldl (fun inv d => match ch.collections[d.collection]? with
          | some c => invalidateDoc s c d.id inv
          | none => inv) (fun v => if v.collection ∈ L then f v else u.invalidated v) =
        fun v => if v.collection ∈ L then ds.foldl (fun inv d => match ch.collections[d.collection]? with
          | some c => invalidateDoc s c d.id inv
          | none => inv) f v else u.invalidated v := by
      intro ds
      induction ds with
      | nil => intro f; rfl
      | cons d ds ih =>
        intro f
        rw [List.foldl_cons, List.foldl_cons]
        cases hc : ch.collections[d.collection]? with
        | none => simp only [hc]; exact ih f
        | some c =>
          simp only [hc]
          rw [invalidateDoc_merge (h c (List.mem_of_getElem? hc))]
          exact ih _
    exact this ch.documents t.invalidated

theorem runOps_changes {s} (all : List Operation) : ∀ {ops t ch t' ch' rs},
    (∀ op ∈ ops, op ∈ all) → ChangesOf all ch → runOps s t ch ops = .ok (t', ch', rs) →
    ChangesOf all ch' := by
  intro ops
  induction ops with
  | nil => intro t ch t' ch' rs _ hch h; simp only [runOps] at h; cases h; exact hch
  | cons op ops ih =>
    intro t ch t' ch' rs hsub hch h
    rw [runOps] at h
    split at h
    · cases h
    · rename_i r hex
      split at h
      · cases h
      · rename_i hrec
        split at h
        · cases h
        · rename_i hrun
          cases h
          refine ih (fun o ho => hsub o (List.mem_cons_of_mem _ ho)) (recordChange_ok hch ?_ hrec) hrun
          intro c id del hc
          exact ⟨op, hsub _ List.mem_cons_self, (changedBy_collection hex hc).symm⟩

/-! ## The concurrent system -/

/-- An executing transaction: the private copy of the trees, recorded changes, results so far. -/
structure Active where
  ops : List Operation
  todo : List Operation
  work : Trees
  changes : Changes
  results : List OpResult

/-- The trees a transaction locks, `open_trees_for_transaction`, database.rs:256-302, by collection. -/
def locks (ops : List Operation) : List QName := ops.map (·.collection)

structure Sys where
  committed : Db
  active : List Active

/-- What clients (and the operating system) observe. -/
inductive Event where
  | committed (tid : Nat) (ops : List Operation) (rs : List OpResult)
  | failed (ops : List Operation) (e : Err)
  | crash
  | read (c : QName) (id : Bytes) (d : Option Document)
  | internal

/-- One step of the system. -/
inductive SysStep (s : Schema) : Sys → Event → Sys → Prop
  /-- a transaction acquires its locks: nobody else holds any of its collections -/
  | start {db act ops} (hk : collectionsKnown s ops = true)
      (hfree : ∀ a ∈ act, ∀ c ∈ locks ops, c ∉ locks a.ops) :
      SysStep s ⟨db, act⟩ .internal ⟨db, ⟨ops, ops, db.trees, ⟨[], []⟩, []⟩ :: act⟩
  /-- a transaction on an unknown collection is refused before it starts -/
  | refuse {db act ops} (hk : collectionsKnown s ops = false) :
      SysStep s ⟨db, act⟩ (.failed ops .collectionNotFound) ⟨db, act⟩
  /-- one operation, on the private copy -/
  | exec {db pre post a op todo t r ch} (ht : a.todo = op :: todo)
      (hx : execOp s a.work op = .ok (t, r)) (hc : recordChange a.changes (changedBy r) = .ok ch) :
      SysStep s ⟨db, pre ++ a :: post⟩ .internal
        ⟨db, pre ++ ⟨a.ops, todo, t, ch, a.results ++ [r]⟩ :: post⟩
  /-- an operation fails: the transaction is dropped -/
  | fail {db pre post a op todo e} (ht : a.todo = op :: todo)
      (hx : execOp s a.work op = .error e ∨
        ∃ t r, execOp s a.work op = .ok (t, r) ∧ recordChange a.changes (changedBy r) = .error e) :
      SysStep s ⟨db, pre ++ a :: post⟩ (.failed a.ops e) ⟨db, pre ++ post⟩
  /-- invalidate the lazy views, publish the locked trees and the log entry -/
  | commit {db pre post a} (tid : Nat) (ht : a.todo = []) :
      SysStep s ⟨db, pre ++ a :: post⟩ (.committed tid a.ops a.results)
        ⟨⟨merge (locks a.ops) (invalidateChanged s a.changes a.work) db.trees,
          db.log ++ [(tid, some a.changes)]⟩, pre ++ post⟩
  /-- the process dies: every private copy is lost -/
  | crash {db act} : SysStep s ⟨db, act⟩ .crash ⟨db, []⟩
  /-- readers see the committed state -/
  | read {db act} (c : QName) (id : Bytes) : SysStep s ⟨db, act⟩ (.read c id (getDoc db c id)) ⟨db, act⟩

inductive SysExec (s : Schema) : Sys → List Event → Sys → Prop
  | nil (σ) : SysExec s σ [] σ
  | snoc {σ evs σ1 e σ2} (h : SysExec s σ evs σ1) (hs : SysStep s σ1 e σ2) : SysExec s σ (evs ++ [e]) σ2

/-- The same events produced one transaction at a time. -/
inductive Serial (s : Schema) : Db → List Event → Db → Prop
  | nil (db) : Serial s db [] db
  | committed {db0 evs db tid ops rs db'} (h : Serial s db0 evs db)
      (ha : applyToRoots s db tid ops = (.ok rs, db')) : Serial s db0 (evs ++ [.committed tid ops rs]) db'
  | failed {db0 evs db ops e} (h : Serial s db0 evs db)
      (ha : ∀ tid, applyToRoots s db tid ops = (.error e, db)) : Serial s db0 (evs ++ [.failed ops e]) db
  | crash {db0 evs db} (h : Serial s db0 evs db) : Serial s db0 (evs ++ [.crash]) db
  | read {db0 evs db} (c id) (h : Serial s db0 evs db) :
      Serial s db0 (evs ++ [.read c id (getDoc db c id)]) db
  | internal {db0 evs db} (h : Serial s db0 evs db) : Serial s db0 (evs ++ [.internal]) db

/-- Invariant of one executing transaction: its private copy holds, on its locked trees, the result
of executing the operations done so far on the *current* committed trees. -/
structure ActiveOK (s : Schema) (db : Db) (a : Active) : Prop where
  known : collectionsKnown s a.ops = true
  run : ∃ done, a.ops = done ++ a.todo ∧
    runOps s db.trees ⟨[], []⟩ done = .ok (merge (locks a.ops) a.work db.trees, a.changes, a.results)

theorem runOps_snoc {s op} : ∀ {ops t ch t1 ch1 rs}, runOps s t ch ops = .ok (t1, ch1, rs) →
    ∀ {t2 r ch2}, execOp s t1 op = .ok (t2, r) → recordChange ch1 (changedBy r) = .ok ch2 →
    runOps s t ch (ops ++ [op]) = .ok (t2, ch2, rs ++ [r]) := by
  intro ops
  induction ops with
  | nil =>
    intro t ch t1 ch1 rs h t2 r ch2 hx hc
    simp only [runOps] at h
    cases h
    simp [runOps, hx, hc]
  | cons o ops ih =>
    intro t ch t1 ch1 rs h t2 r ch2 hx hc
    rw [runOps] at h
    rw [List.cons_append, runOps]
    split at h
    · cases h
    · rename_i hex
      split at h
      · cases h
      · rename_i hrec
        split at h
        · cases h
        · rename_i hrun
          cases h
          simp only [hrec, ih hrun hx hc]
          rfl

theorem runOps_fail' {s op e} : ∀ {pre post : List Operation} {t ch t1 ch1 rs},
    runOps s t ch pre = .ok (t1, ch1, rs) →
    (execOp s t1 op = .error e ∨
      ∃ t2 r, execOp s t1 op = .ok (t2, r) ∧ recordChange ch1 (changedBy r) = .error e) →
    runOps s t ch (pre ++ op :: post) = .error e := by
  intro pre
  induction pre with
  | nil =>
    intro post t ch t1 ch1 rs h he
    simp only [runOps] at h; cases h
    rcases he with he | ⟨t2, r, h1, h2⟩
    · simp only [List.nil_append, runOps, he]
    · simp only [List.nil_append, runOps, h1, h2]
  | cons o pre ih =>
    intro post t ch t1 ch1 rs h he
    rw [runOps] at h
    rw [List.cons_append, runOps]
    split at h
    · cases h
    · rename_i hex
      split at h
      · cases h
      · rename_i hrec
        split at h
        · cases h
        · rename_i hrun
          cases h
          simp only [hrec, ih hrun he]

theorem mem_locks {ops : List Operation} {op : Operation} (h : op ∈ ops) :
    op.collection ∈ locks ops := List.mem_map_of_mem h

/-- A commit of another transaction, on other collections, does not disturb an executing one. -/
theorem ActiveOK.frame {s db a} (h : ActiveOK s db a) {L : List QName} {t : Trees} {log}
    (hdis : ∀ c ∈ locks a.ops, c ∉ L) : ActiveOK s ⟨merge L t db.trees, log⟩ a := by
  obtain ⟨hk, done, hops, hrun⟩ := h
  refine ⟨hk, done, hops, ?_⟩
  have hagree : merge L t db.trees = merge (locks a.ops) db.trees (merge L t db.trees) := by
    apply trees_ext <;> funext x <;> simp only [merge]
    · by_cases hx : x ∈ locks a.ops
      · simp [hx, hdis x hx]
      · simp [hx]
    all_goals
      by_cases hx : x.collection ∈ locks a.ops
      · simp [hx, hdis _ hx]
      · simp [hx]
  show runOps s (merge L t db.trees) _ done = _
  rw [hagree]
  rw [runOps_merge (by intro op ho; exact mem_locks (by rw [hops]; simp [ho])), hrun]
  simp only [Except.map]
  rw [merge_merge_left, ← hagree]

theorem runOps_local {s L u ch ops t' ch' rs} (h : ∀ op ∈ ops, op.collection ∈ L)
    (hrun : runOps s u ch ops = .ok (t', ch', rs)) : t' = merge L t' u := by
  have := runOps_merge (s := s) (L := L) (u := u) (t := u) (ch := ch) h
  rw [merge_self, hrun] at this
  simp only [Except.map, Except.ok.injEq, Prod.mk.injEq] at this
  exact this.1

theorem ActiveOK.exec {s db a op todo t r ch} (h : ActiveOK s db a) (ht : a.todo = op :: todo)
    (hx : execOp s a.work op = .ok (t, r)) (hc : recordChange a.changes (changedBy r) = .ok ch) :
    ActiveOK s db ⟨a.ops, todo, t, ch, a.results ++ [r]⟩ := by
  obtain ⟨hk, done, hops, hrun⟩ := h
  refine ⟨hk, done ++ [op], by rw [hops, ht]; simp, ?_⟩
  have hop : op.collection ∈ locks a.ops := mem_locks (by rw [hops, ht]; simp)
  have hx' : execOp s (merge (locks a.ops) a.work db.trees) op =
      .ok (merge (locks a.ops) t db.trees, r) := by
    rw [execOp_merge hop, hx]; rfl
  exact runOps_snoc hrun hx' hc

theorem ActiveOK.fail {s db a op todo e} (h : ActiveOK s db a) (ht : a.todo = op :: todo)
    (hx : execOp s a.work op = .error e ∨
      ∃ t r, execOp s a.work op = .ok (t, r) ∧ recordChange a.changes (changedBy r) = .error e)
    (tid : Nat) : applyToRoots s db tid a.ops = (.error e, db) := by
  obtain ⟨hk, done, hops, hrun⟩ := h
  have hop : op.collection ∈ locks a.ops := mem_locks (by rw [hops, ht]; simp)
  unfold applyToRoots prepare
  rw [if_pos hk]
  have : runOps s db.trees ⟨[], []⟩ a.ops = .error e := by
    rw [hops, ht]
    refine runOps_fail' hrun ?_
    rw [execOp_merge hop]
    rcases hx with hx | ⟨t, r, h1, h2⟩
    · left; rw [hx]; rfl
    · right; exact ⟨merge (locks a.ops) t db.trees, r, by rw [h1]; rfl, h2⟩
  rw [this]

theorem ActiveOK.commit {s db a} (h : ActiveOK s db a) (ht : a.todo = []) (tid : Nat) :
    applyToRoots s db tid a.ops = (.ok a.results,
      ⟨merge (locks a.ops) (invalidateChanged s a.changes a.work) db.trees,
        db.log ++ [(tid, some a.changes)]⟩) := by
  obtain ⟨hk, done, hops, hrun⟩ := h
  rw [ht, List.append_nil] at hops
  subst hops
  unfold applyToRoots prepare
  rw [if_pos hk, hrun]
  simp only
  have hch := runOps_changes a.ops (fun _ h => h) ⟨List.nodup_nil, by simp, by simp⟩ hrun
  rw [invalidateChanged_merge (by
    intro c hc
    obtain ⟨op, ho, rfl⟩ := hch.2.2 c hc
    exact mem_locks ho)]

/-- No two executing transactions share a collection, and each satisfies its invariant. -/
structure SysOK (s : Schema) (σ : Sys) : Prop where
  each : ∀ a ∈ σ.active, ActiveOK s σ.committed a
  apart : σ.active.Pairwise fun a b => ∀ c ∈ locks a.ops, c ∉ locks b.ops

theorem merge_self_start (s : Schema) (db : Db) (ops : List Operation)
    (hk : collectionsKnown s ops = true) : ActiveOK s db ⟨ops, ops, db.trees, ⟨[], []⟩, []⟩ :=
  ⟨hk, [], rfl, by simp [runOps, merge_self]⟩

theorem apart_mid {s : Schema} {pre post : List Active} {a b : Active}
    (h : (pre ++ a :: post).Pairwise fun a b => ∀ c ∈ locks a.ops, c ∉ locks b.ops)
    (hb : b ∈ pre ++ post) : ∀ c ∈ locks b.ops, c ∉ locks a.ops := by
  rw [List.pairwise_append, List.pairwise_cons] at h
  obtain ⟨h1, ⟨h2, h3⟩, h4⟩ := h
  intro c hc hc'
  rw [List.mem_append] at hb
  rcases hb with hb | hb
  · exact h4 b hb a (by simp) c hc hc'
  · exact h2 b hb c hc' hc

theorem apart_remove {pre post : List Active} {a : Active}
    (h : (pre ++ a :: post).Pairwise fun a b => ∀ c ∈ locks a.ops, c ∉ locks b.ops) :
    (pre ++ post).Pairwise fun a b => ∀ c ∈ locks a.ops, c ∉ locks b.ops :=
  h.sublist (List.Sublist.append (List.Sublist.refl pre) (List.sublist_cons_self a post))

theorem sys_inv {s : Schema} {db0 : Db} {evs : List Event} {σ : Sys}
    (h : SysExec s ⟨db0, []⟩ evs σ) : SysOK s σ ∧ Serial s db0 evs σ.committed := by
  generalize hσ0 : (⟨db0, []⟩ : Sys) = σ0 at h
  induction h with
  | nil => subst hσ0; exact ⟨⟨by simp, by simp⟩, .nil _⟩
  | snoc h hs ih =>
    obtain ⟨⟨heach, hapart⟩, hser⟩ := ih
    cases hs with
    | start hk hfree =>
      refine ⟨⟨?_, ?_⟩, .internal hser⟩
      · intro a ha
        simp at ha
        rcases ha with rfl | ha
        · exact merge_self_start s _ _ hk
        · exact heach a ha
      · rw [List.pairwise_cons]
        exact ⟨fun a ha => hfree a ha, hapart⟩
    | refuse hk =>
      refine ⟨⟨heach, hapart⟩, .failed hser ?_⟩
      intro tid
      unfold applyToRoots prepare
      rw [if_neg (by simp [hk])]
    | exec ht hx hc =>
      rename_i db pre post a op todo t r ch
      refine ⟨⟨?_, ?_⟩, .internal hser⟩
      · intro b hb
        simp at hb
        rcases hb with hb | rfl | hb
        · exact heach b (by simp [hb])
        · exact (heach a (by simp)).exec ht hx hc
        · exact heach b (by simp [hb])
      · have h := hapart
        simp only at h ⊢
        rw [List.pairwise_append, List.pairwise_cons] at h ⊢
        obtain ⟨h1, ⟨h2, h3⟩, h4⟩ := h
        refine ⟨h1, ⟨h2, h3⟩, ?_⟩
        intro x hx y hy
        simp at hy
        rcases hy with rfl | hy
        · exact h4 x hx a (by simp)
        · exact h4 x hx y (by simp [hy])
    | fail ht hx =>
      rename_i db pre post a op todo e
      refine ⟨⟨?_, apart_remove hapart⟩, .failed hser ?_⟩
      · intro b hb
        simp at hb
        exact heach b (by simp; rcases hb with hb | hb <;> simp [hb])
      · intro tid
        exact (heach a (by simp)).fail ht hx tid
    | commit tid ht =>
      rename_i db pre post a
      refine ⟨⟨?_, apart_remove hapart⟩, .committed hser ((heach a (by simp)).commit ht tid)⟩
      intro b hb
      have hbm : b ∈ pre ++ a :: post := by
        simp at hb ⊢; rcases hb with hb | hb <;> simp [hb]
      exact (heach b hbm).frame (apart_mid (s := s) hapart hb)
    | crash => exact ⟨⟨by simp, by simp⟩, .crash hser⟩
    | read c id => exact ⟨⟨heach, hapart⟩, .read c id hser⟩

/-- **C20.** Any number of transactions may run at the same time, in any interleaving of their
operations, and the process may crash at any moment: what every client is told, what every reader
sees, and the committed database (documents, views, log) are what executing the committed
transactions one at a time, each entirely, in commit order would give; failed transactions and
transactions cut off by a crash leave nothing behind. -/
theorem C20_concurrent_transactions_are_atomic (s : Schema) (db0 : Db) (evs : List Event) (σ : Sys)
    (h : SysExec s ⟨db0, []⟩ evs σ) : Serial s db0 evs σ.committed := (sys_inv h).2

/-! Two transactions on different collections interleave; one fails, one commits. -/

def exSchema2 : Schema := { exSchema with collections := [⟨"a", "c"⟩, ⟨"a", "d"⟩] }
def exD : QName := ⟨"a", "d"⟩

example : ∃ σ evs, SysExec exSchema2 ⟨.empty, []⟩ evs σ ∧
    getDoc σ.committed exC [1] = some ⟨⟨[1], ⟨0, [5]⟩⟩, [5]⟩ ∧ getDoc σ.committed exD [1] = none := by
  let opsC : List Operation := [⟨exC, .insert (some [1]) [5]⟩]
  let opsD : List Operation := [⟨exD, .insert (some [1]) [6]⟩, ⟨exD, .insert (some [1]) [7]⟩]
  refine ⟨_, _, .snoc (.snoc (.snoc (.snoc (.snoc (.snoc (.nil _)
    (.start (ops := opsC) rfl ?_)) (.start (ops := opsD) rfl ?_))
    (.exec (pre := []) rfl rfl rfl))
    (.exec (pre := [_]) (post := []) rfl rfl rfl))
    (.fail (pre := []) (e := .conflict exD ⟨[1], ⟨0, [6]⟩⟩) rfl (.inl rfl)))
    (.commit (pre := []) 1 rfl), rfl, rfl⟩
  · intro a ha; cases ha
  · intro a ha
    simp at ha
    subst ha
    intro c hc
    simp [locks, opsD, opsC] at hc ⊢
    subst hc
    decide

end Bonsai.Store
