import Verif.Store.C24

/-!
# C25: the transaction log
-/
set_option linter.unusedSimpArgs false
set_option linter.unusedVariables false

namespace Bonsai.Store
open Bonsai Bonsai.Names

/-- The changed documents of a log record with their collection: collection, id, deleted. -/
def Changes.resolved (ch : Changes) : List (Option QName × Bytes × Bool) :=
  ch.documents.map fun d => (ch.collections[d.collection]?, d.id, d.deleted)

/-- What the results of the operations say was changed, in order. -/
def reported (rs : List OpResult) : List (Option QName × Bytes × Bool) :=
  rs.filterMap fun r => match r with
    | .updated c h => some (some c, h.id, false)
    | .deleted c id => some (some c, id, true)
    | .success => none

theorem idxOf?_get {l : List QName} {c : QName} {i : Nat} (h : l.idxOf? c = some i) : l[i]? = some c := by
  rw [List.idxOf?, List.findIdx?_eq_some_iff_getElem] at h
  obtain ⟨hi, hc, -⟩ := h
  rw [List.getElem?_eq_getElem hi]
  simpa using hc

/-- All recorded indexes are valid. -/
def Changes.valid (ch : Changes) : Prop := ∀ d ∈ ch.documents, d.collection < ch.collections.length

theorem recordChange_resolved {ch o ch'} (hv : ch.valid) (h : recordChange ch o = .ok ch') :
    ch'.valid ∧ ch'.resolved = ch.resolved ++ (o.map fun x => (some x.1, x.2.1, x.2.2)).toList := by
  match o with
  | none => cases h; exact ⟨hv, by simp⟩
  | some (c, id, del) =>
    simp only [recordChange] at h
    split at h
    · rename_i i hi
      cases h
      have hg := idxOf?_get hi
      have hlt : i < ch.collections.length := by
        rcases Nat.lt_or_ge i ch.collections.length with h | h
        · exact h
        · rw [List.getElem?_eq_none h] at hg; cases hg
      refine ⟨?_, ?_⟩
      · intro d hd
        simp at hd
        rcases hd with hd | rfl
        · exact hv d hd
        · exact hlt
      · simp [Changes.resolved, hg]
    · split at h
      · cases h
        refine ⟨?_, ?_⟩
        · intro d hd
          simp at hd ⊢
          rcases hd with hd | rfl
          · have := hv d hd; omega
          · simp
        · simp only [Changes.resolved, List.map_append, List.map_cons, List.map_nil]
          congr 1
          · apply List.map_congr_left
            intro d hd
            rw [List.getElem?_append_left (hv d hd)]
          · simp
      · cases h

theorem runOps_resolved {s} : ∀ {ops t ch t' ch' rs}, ch.valid →
    runOps s t ch ops = .ok (t', ch', rs) → ch'.valid ∧ ch'.resolved = ch.resolved ++ reported rs := by
  intro ops
  induction ops with
  | nil => intro t ch t' ch' rs hv h; simp only [runOps] at h; cases h; exact ⟨hv, by simp [reported]⟩
  | cons op ops ih =>
    intro t ch t' ch' rs hv h
    rw [runOps] at h
    split at h
    · cases h
    · rename_i r hex
      split at h
      · cases h
      · rename_i ch1 hrec
        split at h
        · cases h
        · rename_i hrun
          cases h
          obtain ⟨hv1, h1⟩ := recordChange_resolved hv hrec
          obtain ⟨hv2, h2⟩ := ih hv1 hrun
          refine ⟨hv2, ?_⟩
          rw [h2, h1, List.append_assoc]
          congr 1
          cases r <;> simp [reported, changedBy]

/-- **C25.** A failed transaction appears nowhere in the log; a successful one adds exactly one
record at the end, with its id, listing the documents its operations updated or deleted with
collection, id and deleted flag, in operation order. -/
theorem C25_log_records_operations (s : Schema) (db : Db) (tid : Nat) (ops : List Operation) :
    match applyToRoots s db tid ops with
    | (.error _, db') => db'.log = db.log
    | (.ok rs, db') => ∃ ch, db'.log = db.log ++ [(tid, some ch)] ∧ ch.resolved = reported rs := by
  unfold applyToRoots
  cases hp : prepare s db.trees ops with
  | error e => rfl
  | ok p =>
    obtain ⟨t, ch, rs⟩ := p
    refine ⟨ch, rfl, ?_⟩
    unfold prepare at hp
    split at hp
    · split at hp
      · cases hp
      · rename_i hrun
        cases hp
        have := (runOps_resolved (by intro d hd; simp at hd) hrun).2
        simpa [Changes.resolved] using this
    · cases hp

theorem execOp_reported {s S t op t' r} (hS : CollisionFree s.digest S)
    (hwf : DocsWF s.digest S t.docs) (hc : ∀ x, op.command.contents = some x → S x)
    (h : execOp s t op = .ok (t', r)) (c : QName) (id : Bytes) :
    ((∀ del, changedBy r ≠ some (c, id, del)) → (t'.docs c).get id = (t.docs c).get id) ∧
    (∀ del, changedBy r = some (c, id, del) → del = ((t'.docs c).get id).isNone) := by
  have hwf' := ((execOp_refines hS hwf hc).ok _ _ h).1
  obtain ⟨c0, cmd⟩ := op
  have stored : ∀ {i x hd}, r = .updated c0 hd → (t'.docs c0).get i = some ⟨hd, x⟩ →
      (∀ c' id', ¬ (c' = c0 ∧ id' = i) → (t'.docs c').get id' = (t.docs c').get id') →
      ((∀ del, changedBy r ≠ some (c, id, del)) → (t'.docs c).get id = (t.docs c).get id) ∧
      (∀ del, changedBy r = some (c, id, del) → del = ((t'.docs c).get id).isNone) := by
    intro i x hd hr hg hf
    have hid : hd.id = i := (hwf' _ _ _ hg).1
    subst hr
    refine ⟨?_, ?_⟩
    · intro hn
      refine hf c id ?_
      rintro ⟨rfl, rfl⟩
      exact hn false (by simp [changedBy, hid])
    · intro del hcb
      simp only [changedBy, hid, Option.some.injEq, Prod.mk.injEq] at hcb
      obtain ⟨rfl, rfl, rfl⟩ := hcb
      rw [hg]; rfl
  cases cmd with
  | insert oid x =>
    obtain ⟨hh, hr, -, -, h1, h2, h3⟩ := C23_insert_starts_at_zero s t t' c0 oid x r h
    exact stored hr h2 h3
  | update hh x =>
    obtain ⟨hd, h1, h2, h3, -⟩ := execUpdate_stored hS hwf (hc x rfl) h
    exact stored h1 h2 h3
  | overwrite i x =>
    obtain ⟨hd, h1, h2, h3, -⟩ := execUpdate_stored hS hwf (hc x rfl) h
    exact stored h1 h2 h3
  | delete hh =>
    simp only [execOp, execDelete] at h
    split at h
    · cases h
    · split at h
      · split at h
        · cases h
        · rename_i hu
          cases h
          rw [(updateEagerViews_docs hu).1]
          simp only
          rw [get_upd]
          refine ⟨?_, ?_⟩
          · intro hn
            split
            · rename_i hc'
              subst hc'
              refine OMap.get_remove_ne _ ?_
              intro e
              exact hn true (by simp [changedBy, e])
            · rfl
          · intro del hcb
            simp only [changedBy, Option.some.injEq, Prod.mk.injEq] at hcb
            obtain ⟨rfl, rfl, rfl⟩ := hcb
            simp
      · cases h
  | check i rv =>
    simp only [execOp, execCheck] at h
    split at h
    · cases h
    · split at h
      · split at h <;> cases h
        exact ⟨fun _ => rfl, fun _ hc => by simp [changedBy] at hc⟩
      · cases h; exact ⟨fun _ => rfl, fun _ hc => by simp [changedBy] at hc⟩

theorem reported_cons (r : OpResult) (rs : List OpResult) :
    reported (r :: rs) = ((changedBy r).map fun x => (some x.1, x.2.1, x.2.2)).toList ++ reported rs := by
  cases r <;> simp [reported, changedBy]

theorem runOps_reported {s S c id} (hS : CollisionFree s.digest S) : ∀ {ops t ch t' ch' rs},
    DocsWF s.digest S t.docs → Writes S ops → runOps s t ch ops = .ok (t', ch', rs) →
    ((∀ del, (some c, id, del) ∉ reported rs) → (t'.docs c).get id = (t.docs c).get id) ∧
    (∀ pre post del, reported rs = pre ++ (some c, id, del) :: post →
      (∀ del', (some c, id, del') ∉ post) → del = ((t'.docs c).get id).isNone) := by
  intro ops
  induction ops with
  | nil =>
    intro t ch t' ch' rs hwf hw h
    simp only [runOps] at h
    cases h
    refine ⟨fun _ => rfl, ?_⟩
    intro pre post del he
    simp [reported] at he
  | cons op ops ih =>
    intro t ch t' ch' rs hwf hw h
    rw [runOps] at h
    split at h
    · cases h
    · rename_i t1 r hex
      split at h
      · cases h
      · split at h
        · cases h
        · rename_i rs' hrun
          cases h
          have hc := fun x hx => hw op List.mem_cons_self x hx
          have hwf1 := ((execOp_refines hS hwf hc).ok _ _ hex).1
          obtain ⟨a1, a2⟩ := execOp_reported hS hwf hc hex c id
          obtain ⟨b1, b2⟩ := ih hwf1 (fun o ho => hw o (List.mem_cons_of_mem _ ho)) hrun
          refine ⟨?_, ?_⟩
          · intro hn
            rw [b1 ?_, a1 ?_]
            · intro del he
              exact hn del (by rw [reported_cons, he]; simp)
            · intro del hm
              exact hn del (by rw [reported_cons]; simp [hm])
          · intro pre post del he hn
            rw [reported_cons] at he
            cases hcb : changedBy r with
            | none =>
              rw [hcb] at he
              simp at he
              exact b2 pre post del he hn
            | some x =>
              obtain ⟨c', id', del'⟩ := x
              rw [hcb] at he
              simp only [Option.map_some, Option.toList_some, List.singleton_append] at he
              cases pre with
              | cons y pre =>
                simp only [List.cons_append, List.cons.injEq] at he
                exact b2 pre post del he.2 hn
              | nil =>
                simp only [List.nil_append, List.cons.injEq, Prod.mk.injEq, Option.some.injEq] at he
                obtain ⟨⟨rfl, rfl, rfl⟩, rfl⟩ := he
                rw [b1 hn]
                exact a2 _ hcb

/-- **C25.** The record is complete and its flags are right: a document without record in it was not
changed by the transaction, and the last record of a document says "deleted" exactly if the document
does not exist afterwards. -/
theorem C25_log_is_complete (s : Schema) (S : Bytes → Prop) (hS : CollisionFree s.digest S) (db : Db)
    (hr : Reachable s S db) (tid : Nat) (ops : List Operation) (hw : Writes S ops)
    (rs : List OpResult) (hok : (applyToRoots s db tid ops).1 = .ok rs) (c : QName) (id : Bytes) :
    ((∀ del, (some c, id, del) ∉ reported rs) →
      getDoc (applyToRoots s db tid ops).2 c id = getDoc db c id) ∧
    (∀ pre post del, reported rs = pre ++ (some c, id, del) :: post →
      (∀ del', (some c, id, del') ∉ post) →
      del = (getDoc (applyToRoots s db tid ops).2 c id).isNone) := by
  unfold applyToRoots at hok ⊢
  cases hp : prepare s db.trees ops with
  | error e => rw [hp] at hok; cases hok
  | ok p =>
    obtain ⟨t, ch, rs'⟩ := p
    rw [hp] at hok
    cases hok
    unfold prepare at hp
    split at hp
    · split at hp
      · cases hp
      · rename_i hrun
        cases hp
        have h := runOps_reported (c := c) (id := id) hS (hr.wf hS) hw hrun
        exact h
    · cases hp

/-- **C25 (violated, finding F42).** The record is not exact: writing identical contents is recorded
as a change although nothing changed. -/
theorem C25_violated_noop_recorded :
    (getDoc exDb exC [7]) = getDoc (applyToRoots exSchema exDb 3 [⟨exC, .overwrite [7] [2]⟩]).2 exC [7] ∧
    (applyToRoots exSchema exDb 3 [⟨exC, .overwrite [7] [2]⟩]).2.log =
      exDb.log ++ [(3, some ⟨[exC], [⟨0, [7], false⟩]⟩)] := ⟨rfl, rfl⟩

/-! ## Ids -/

/-- Log entries have increasing ids. -/
def LogSorted {α : Type} (log : List (Nat × α)) : Prop := log.Pairwise fun a b => a.1 < b.1

/-- **C25.** If every transaction gets an id above all ids of the log (nebari's guarantee), then after
any history the log is ordered by id, and no id occurs twice. -/
theorem C25_ids_increase (s : Schema) : ∀ (h : List (Nat × List Operation)) (db : Db),
    LogSorted db.log →
    (∀ pre p post, h = pre ++ p :: post → ∀ e ∈ (runHistory s db pre).log, e.1 < p.1) →
    LogSorted (runHistory s db h).log := by
  intro h
  induction h with
  | nil => intro db hs _; exact hs
  | cons p h ih =>
    intro db hs hfresh
    refine ih _ ?_ ?_
    · have hf := hfresh [] p h rfl
      unfold applyToRoots
      split
      · exact hs
      · show LogSorted (db.log ++ [_])
        unfold LogSorted
        rw [List.pairwise_append]
        refine ⟨hs, by simp, ?_⟩
        intro a ha b hb
        simp at hb
        subst hb
        exact hf a ha
    · intro pre q post he
      exact hfresh (p :: pre) q post (by rw [he]; rfl)

/-! ## Listing -/

/-- The callback loop of `list_executed_transactions`, database.rs:1030-1041: collect entries with
data until the limit is reached. -/
def scanLog {α : Type} (limit : Nat) : List (Nat × Option α) → List (Nat × α) → List (Nat × α)
  | [], acc => acc
  | e :: es, acc =>
    let acc := match e.2 with
      | some d => acc ++ [(e.1, d)]
      | none => acc
    if acc.length < limit then scanLog limit es acc else acc

/-- `list_executed_transactions`, database.rs:1010-1062 (without the permission check). Nebari's
`scan` visits the entries with ids in the range, in order. -/
def listExecuted {α : Type} (log : List (Nat × Option α)) (start : Option Nat) (limit : Option Nat) :
    List (Nat × α) :=
  let n := min (limit.getD 100) 1000
  if 0 < n then scanLog n (log.filter fun e => decide (start.getD 0 ≤ e.1)) [] else []

/-- The committed transactions that carry data, from `start` on. -/
def executedFrom {α : Type} (log : List (Nat × Option α)) (start : Nat) : List (Nat × α) :=
  log.filterMap fun e => if start ≤ e.1 then e.2.map fun d => (e.1, d) else none

theorem scanLog_eq {α : Type} {n : Nat} : ∀ (es : List (Nat × Option α)) (acc : List (Nat × α)),
    acc.length < n → scanLog n es acc =
      acc ++ (es.filterMap fun e => e.2.map fun d => (e.1, d)).take (n - acc.length) := by
  intro es
  induction es with
  | nil => intro acc _; simp [scanLog]
  | cons e es ih =>
    intro acc hacc
    obtain ⟨i, d⟩ := e
    cases d with
    | none =>
      simp only [scanLog, List.filterMap_cons, Option.map_none]
      rw [if_pos hacc, ih acc hacc]
    | some d =>
      simp only [scanLog, List.filterMap_cons, Option.map_some]
      have hl : (acc ++ [(i, d)]).length = acc.length + 1 := by simp
      split
      · rename_i hlt
        rw [ih _ hlt, hl, List.append_assoc]
        congr 1
        rw [show n - acc.length = (n - (acc.length + 1)) + 1 by rw [hl] at hlt; omega]
        simp
      · rename_i hge
        rw [hl] at hge
        rw [show n - acc.length = 1 by omega]
        simp

/-- **C25.** A listing is the first `limit` (default 100, at most 1000) committed transactions with
ids from `start` on, in log order. -/
theorem C25_listing {α : Type} (log : List (Nat × Option α)) (start limit : Option Nat) :
    listExecuted log start limit =
      (executedFrom log (start.getD 0)).take (min (limit.getD 100) 1000) := by
  have hf : ∀ (l : List (Nat × Option α)), (l.filter fun e => decide (start.getD 0 ≤ e.1)).filterMap
      (fun e => e.2.map fun d => (e.1, d)) = executedFrom l (start.getD 0) := by
    intro l
    unfold executedFrom
    rw [List.filterMap_filter]
    congr 1
    funext e
    simp
  simp only [listExecuted]
  split
  · rename_i h
    rw [scanLog_eq _ _ (by simpa using h), hf]
    simp
  · rename_i h
    have : min (limit.getD 100) 1000 = 0 := by omega
    rw [this]; simp

/-- Reading page after page, each starting after the last id seen. -/
def pages {α : Type} (log : List (Nat × Option α)) (limit : Option Nat) : Nat → Nat → List (Nat × α)
  | 0, _ => []
  | fuel + 1, start =>
    let page := listExecuted log (some start) limit
    match page.getLast? with
    | none => []
    | some l => page ++ pages log limit fuel (l.1 + 1)

theorem executedFrom_sorted {α : Type} {log : List (Nat × Option α)} (h : LogSorted log) (n : Nat) :
    LogSorted (executedFrom log n) := by
  unfold LogSorted executedFrom
  rw [List.pairwise_filterMap]
  refine h.imp ?_
  intro a b hab x hx y hy
  split at hx
  · split at hy
    · cases ha : a.2 <;> rw [ha] at hx <;> simp at hx
      cases hb : b.2 <;> rw [hb] at hy <;> simp at hy
      subst hx hy
      exact hab
    · cases hy
  · cases hx

/-- In a log ordered by id, what comes after an entry is what starts at its id plus one. -/
theorem executedFrom_next {α : Type} {log : List (Nat × Option α)} (h : LogSorted log) {n : Nat}
    {pre post : List (Nat × α)} {l : Nat × α} (he : executedFrom log n = pre ++ l :: post) :
    executedFrom log (l.1 + 1) = post := by
  have hs := executedFrom_sorted h n
  have hmem : l ∈ executedFrom log n := by rw [he]; simp
  have hnl : n ≤ l.1 := by
    unfold executedFrom at hmem
    rw [List.mem_filterMap] at hmem
    obtain ⟨e, -, h⟩ := hmem
    split at h
    · rename_i hle
      cases hd : e.2 <;> rw [hd] at h <;> simp at h
      subst h; exact hle
    · cases h
  have h1 : executedFrom log (l.1 + 1) = (executedFrom log n).filter fun e => decide (l.1 + 1 ≤ e.1) := by
    unfold executedFrom
    rw [List.filter_filterMap]
    congr 1
    funext e
    by_cases h2 : l.1 + 1 ≤ e.1
    · have h3 : n ≤ e.1 := by omega
      simp only [h2, h3, if_true]
      cases e.2 <;> simp [h2, Option.filter]
    · simp only [h2, if_false]
      split
      · cases e.2 <;> simp [h2, Option.filter]
      · rfl
  rw [h1, he]
  rw [he] at hs
  unfold LogSorted at hs
  rw [List.pairwise_append] at hs
  obtain ⟨-, h2, h3⟩ := hs
  rw [List.pairwise_cons] at h2
  rw [List.filter_append, List.filter_cons]
  have e1 : pre.filter (fun e => decide (l.1 + 1 ≤ e.1)) = [] := by
    rw [List.filter_eq_nil_iff]
    intro a ha
    have := h3 a ha l (by simp)
    simp; omega
  have e2 : post.filter (fun e => decide (l.1 + 1 ≤ e.1)) = post := by
    rw [List.filter_eq_self]
    intro a ha
    have := h2.1 a ha
    simp; omega
  rw [e1, e2]
  simp

/-- **C25.** Paging through the log with any positive limit, each page starting after the last id of
the previous one, yields every committed transaction from `start` on exactly once, in order. -/
theorem C25_paging {α : Type} (log : List (Nat × Option α)) (hs : LogSorted log) (limit : Option Nat)
    (hl : 0 < limit.getD 100) : ∀ (fuel start : Nat), (executedFrom log start).length ≤ fuel →
      pages log limit (fuel + 1) start = executedFrom log start := by
  intro fuel
  induction fuel with
  | zero =>
    intro start h
    have h0 : executedFrom log start = [] := List.length_eq_zero_iff.mp (by omega)
    simp only [pages]
    rw [C25_listing]
    simp [h0]
  | succ fuel ih =>
    intro start h
    rw [pages]
    rw [C25_listing]
    simp only [Option.getD_some]
    have hn : 0 < min (limit.getD 100) 1000 := by omega
    generalize min (limit.getD 100) 1000 = n at hn
    cases hlast : ((executedFrom log start).take n).getLast? with
    | none =>
      simp only
      rw [List.getLast?_eq_none_iff] at hlast
      cases he : executedFrom log start with
      | nil => rfl
      | cons a r =>
        rw [he] at hlast
        cases n with
        | zero => omega
        | succ n => simp at hlast
    | some l =>
      simp only
      have hsplit : (executedFrom log start).take n ++ (executedFrom log start).drop n =
          executedFrom log start := List.take_append_drop _ _
      have hpre : ∃ pre, (executedFrom log start).take n = pre ++ [l] := by
        rw [List.getLast?_eq_some_iff] at hlast
        exact hlast
      obtain ⟨pre, hpre⟩ := hpre
      have hrest : executedFrom log (l.1 + 1) = (executedFrom log start).drop n := by
        apply executedFrom_next hs (n := start) (pre := pre) (l := l)
        rw [← hsplit]
        conv => lhs; rw [hpre]
        simp
      rw [ih (l.1 + 1) ?_, hrest, hsplit]
      rw [hrest, List.length_drop]
      omega

example : pages [(1, some 'a'), (2, none), (5, some 'b'), (6, some 'c')] (some 2) 4 1 =
    [(1, 'a'), (5, 'b'), (6, 'c')] := by decide
example : LogSorted [(1, some 'a'), (2, none), (5, some 'b'), (6, some 'c')] := by
  unfold LogSorted; decide
example : listExecuted [(1, some 'a'), (2, none), (5, some 'b'), (6, some 'c')] (some 2) (some 1) =
    [(5, 'b')] := by decide

end Bonsai.Store
