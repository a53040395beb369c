import Verif.Views.C75b

/-!
# C75: a query can always finish
-/
set_option linter.unusedSimpArgs false
set_option linter.unusedVariables false

namespace Bonsai.Store.Wait
open Bonsai Bonsai.Names Bonsai.Store

variable {s : Schema}

/-- Mapping the view never fails: the user's functions return no errors, and it is not a unique view. -/
structure Total (v : View) : Prop where
  map : ∀ d, ∃ ms, v.map d = some ms
  reduce : ∀ l b, v.reduce l b ≠ .error
  policy : v.policy ≠ .unique

theorem addMappings_total {v : View} (h : Total v) (ns : List EntryMapping) :
    ∀ ms, ∃ r, addMappings v ms ns = .ok r := by
  induction ns with
  | nil => intro ms; exact ⟨ms, rfl⟩
  | cons n ns ih =>
    intro ms
    have hu : uniqueConflict v ms n = none := by
      unfold uniqueConflict
      cases hp : v.policy with
      | unique => exact absurd hp h.policy
      | lazy => simp
      | eager => simp
    simp only [addMappings, hu]
    exact ih _

theorem reduceEntry_total {v : View} (h : Total v) (key : Bytes) (r : Bool) (e : ViewEntry) :
    ∃ x, reduceEntry v key r e = .ok x := by
  unfold reduceEntry
  cases r with
  | false => exact ⟨_, rfl⟩
  | true =>
    simp only [if_true]
    cases hr : v.reduce (e.mappings.map fun m => (key, m.value)) false with
    | ok b => exact ⟨_, rfl⟩
    | unimplemented => exact ⟨_, rfl⟩
    | error => exact absurd hr (h.reduce _ _)

theorem compareSwap_total {v : View} (h : Total v) (r : Bool) (key : Bytes) (old : Option ViewEntry)
    (clean : List Bytes) (new : List EntryMapping) :
    ∃ x, compareSwap v r key old clean new = .ok x := by
  unfold compareSwap
  dsimp only
  by_cases hc : clean = []
  · simp only [hc, if_true]
    obtain ⟨ms, hms⟩ := addMappings_total h new (old.getD ⟨v.version, key, [], []⟩).mappings
    simp only [hms]
    by_cases hn : new = []
    · simp only [hn, if_true]; exact ⟨_, rfl⟩
    · simp only [hn, if_false]
      obtain ⟨⟨e, r'⟩, he⟩ := reduceEntry_total h key r
        { old.getD ⟨v.version, key, [], []⟩ with mappings := ms }
      simp only [he]
      exact ⟨_, rfl⟩
  · simp only [hc, if_false]
    generalize (old.getD ⟨v.version, key, [], []⟩).mappings.filter
      (fun m => !clean.contains m.source.id) = kept
    by_cases hk : kept = [] ∧ new = []
    · simp only [hk, and_self, if_true]; exact ⟨_, rfl⟩
    · simp only [hk, if_false]
      obtain ⟨⟨e1, r1⟩, he⟩ := reduceEntry_total h key r
        { old.getD ⟨v.version, key, [], []⟩ with mappings := kept }
      simp only [he]
      obtain ⟨ms, hms⟩ := addMappings_total h new e1.mappings
      simp only [hms]
      by_cases hn : new = []
      · simp only [hn, if_true]; exact ⟨_, rfl⟩
      · simp only [hn, if_false]
        obtain ⟨⟨e, r'⟩, he⟩ := reduceEntry_total h key r1 { e1 with mappings := ms }
        simp only [he]
        exact ⟨_, rfl⟩

theorem updateEntries_total {v : View} (h : Total v) (clean : Bytes → List Bytes)
    (new : Bytes → List EntryMapping) (ks : List Bytes) :
    ∀ r es, ∃ x, updateEntries v clean new r es ks = .ok x := by
  induction ks with
  | nil => intro r es; exact ⟨es, rfl⟩
  | cons k ks ih =>
    intro r es
    obtain ⟨⟨o, r'⟩, he⟩ := compareSwap_total h r k (es.get k) (clean k) (new k)
    simp only [updateEntries, he]
    cases o with
    | some e => exact ih _ _
    | none => exact ih _ _

theorem mapDocs_total {v : View} (h : Total v) (docs : OMap Document) (ids : List Bytes) :
    ∃ x, mapDocs v docs ids = some x := by
  induction ids with
  | nil => exact ⟨_, rfl⟩
  | cons id ids ih =>
    obtain ⟨x, hx⟩ := ih
    have hd : ∃ y, mapDoc v docs id = some y := by
      unfold mapDoc
      cases docs.get id with
      | none => exact ⟨_, rfl⟩
      | some d =>
        obtain ⟨ms, hms⟩ := h.map d
        simp only [hms, Option.map_some]
        exact ⟨_, rfl⟩
    obtain ⟨y, hy⟩ := hd
    simp only [mapDocs, hy, hx, Option.bind_some, Option.map_some]
    exact ⟨_, rfl⟩

theorem mapBatches_total {v : View} (h : Total v) (docs : OMap Document) (bs : List (List Bytes)) :
    ∀ st, ∃ x, mapBatches v docs bs st = .ok x := by
  induction bs with
  | nil => intro st; exact ⟨st, rfl⟩
  | cons b bs ih =>
    intro st
    obtain ⟨maps, hm⟩ := mapDocs_total h docs b
    obtain ⟨es, he⟩ := updateEntries_total h (cleanFor st.2 maps) (newFor maps) (allKeys st.2 maps) true st.1
    simp only [mapBatches, mapBatch, hm, he]
    exact ih _

/-- No job has failed or panicked so far. -/
structure NoTrouble (q : QSys) : Prop where
  panic : ∀ i, Jobs.Event.panic i ∉ q.evs
  error : ∀ i, Jobs.Event.complete i none ∉ q.evs
  work : ∀ y ∈ q.work, ∀ v, y.2 ≠ .ended v none

/-- Executions without transactions of clients, and without a restart. -/
abbrev Alone (s : Schema) : QSys → QSys → Prop := Same s fun _ => False

theorem Same.one {A : List Operation → Prop} {q q' : QSys} (hs : QStep s A q q')
    (hp : q.evs <+: q'.evs) : Same s A q q' := .step (.refl _) hs hp

theorem same_inv (hdv : DistinctViews s) {A : List Operation → Prop} {q q' : QSys} (h : QInv s q)
    (hs : Same s A q q') : QInv s q' := qexec_inv hdv h hs.exec

/-- What running jobs to their ends leaves alone. -/
structure Ran (q q' : QSys) : Prop where
  workers : q'.workers = q.workers
  queries : q'.queries = q.queries
  trouble : NoTrouble q'

theorem Ran.trans {a b c : QSys} (h1 : Ran a b) (h2 : Ran b c) : Ran a c :=
  ⟨h2.workers.trans h1.workers, h2.queries.trans h1.queries, h2.trouble⟩

theorem completed_queue (st : Jobs.St VName (Option Nat)) (t : Jobs.Task VName) (r : Option Nat) :
    (st.completed t r).queue = st.queue := (completed_shape (st := st) (t := t) (r := r)).2.1

/-- A job that has ended is reported. -/
theorem run_ended {q : QSys} (hn : NoTrouble q) {pre post : List (Jobs.Task VName × Work)}
    {t : Jobs.Task VName} {v : View} {m : Nat} (hj : q.work = pre ++ (t, .ended v (some m)) :: post)
    (hl : q.evs.length + 1 < 2 ^ 64) :
    ∃ q', Alone s q q' ∧ Ran q q' ∧ q'.work = pre ++ post ∧ q'.mgr.queue = q.mgr.queue ∧
      q'.evs.length = q.evs.length + 1 := by
  refine ⟨_, .one (.complete hj hl) ⟨[.complete t.id (some m)], rfl⟩, ⟨rfl, rfl, ?_, ?_, ?_⟩, rfl,
    completed_queue _ _ _, by simp [QSys.completed]⟩
  · intro i hi
    simp only [QSys.completed, List.mem_append, List.mem_singleton] at hi
    rcases hi with hi | hi
    · exact hn.panic i hi
    · cases hi
  · intro i hi
    simp only [QSys.completed, List.mem_append, List.mem_singleton] at hi
    rcases hi with hi | hi
    · exact hn.error i hi
    · cases hi
  · intro y hy
    refine hn.work y ?_
    rw [hj]
    have hy : y ∈ pre ++ post := hy
    simp only [List.mem_append, List.mem_cons] at hy ⊢
    rcases hy with hy | hy
    · exact .inl hy
    · exact .inr (.inr hy)

theorem noTrouble_replace {q : QSys} (hn : NoTrouble q) {pre post : List (Jobs.Task VName × Work)}
    {t : Jobs.Task VName} {a b : Work} (hj : q.work = pre ++ (t, a) :: post)
    (hb : ∀ v, b ≠ .ended v none) : ∀ y ∈ pre ++ (t, b) :: post, ∀ v, y.2 ≠ .ended v none := by
  intro y hy
  have h := hn.work y
  rw [hj] at h
  simp only [List.mem_append, List.mem_cons] at hy h
  rcases hy with hy | rfl | hy
  · exact h (.inl hy)
  · exact hb
  · exact h (.inr (.inr hy))

theorem chunkRest_lt {p : List Bytes} (h : p ≠ []) : (chunkRest p).length < p.length := by
  have h0 : 0 < chunkSize := by unfold chunkSize; omega
  have h1 : 0 < p.length := List.length_pos_iff.mpr h
  unfold chunkRest
  rw [List.length_take]
  omega

/-- A job that has read its documents runs to its end. -/
theorem run_scanned {n : Nat} : ∀ {q : QSys}, NoTrouble q → ∀ {pre post : List (Jobs.Task VName × Work)}
    {t : Jobs.Task VName} {v : View} {m : Nat} {p : List Bytes}, p.length ≤ n → Total v →
    q.work = pre ++ (t, .mapping ⟨v, m, some p⟩) :: post → q.evs.length + 1 < 2 ^ 64 →
    ∃ q', Alone s q q' ∧ Ran q q' ∧ q'.work = pre ++ post ∧ q'.mgr.queue = q.mgr.queue ∧
      q'.evs.length = q.evs.length + 1 := by
  induction n with
  | zero =>
    intro q hn pre post t v m p hp hv hj hl
    have : p = [] := List.length_eq_zero_iff.mp (Nat.le_zero.mp hp)
    subst this
    have hstep : QStep s (fun _ => False) q _ := .finish hj
    have hn' := noTrouble_replace hn hj (b := .ended v (some m)) (by simp)
    obtain ⟨q', h1, h2, h3, h4, h5⟩ := run_ended (s := s)
      (q := { q with
        results := upd q.results v.name (q.results v.name ++ [m])
        status := upd q.status v.name (some m)
        work := pre ++ (t, .ended v (some m)) :: post }) ⟨hn.panic, hn.error, hn'⟩ rfl hl
    exact ⟨q', (Same.one hstep (List.prefix_rfl)).trans h1, ⟨h2.workers, h2.queries, h2.trouble⟩, h3, h4, h5⟩
  | succ n ih =>
    intro q hn pre post t v m p hp hv hj hl
    by_cases he : p = []
    · subst he
      have hstep : QStep s (fun _ => False) q _ := .finish hj
      have hn' := noTrouble_replace hn hj (b := .ended v (some m)) (by simp)
      obtain ⟨q', h1, h2, h3, h4, h5⟩ := run_ended (s := s)
        (q := { q with
          results := upd q.results v.name (q.results v.name ++ [m])
          status := upd q.status v.name (some m)
          work := pre ++ (t, .ended v (some m)) :: post }) ⟨hn.panic, hn.error, hn'⟩ rfl hl
      exact ⟨q', (Same.one hstep (List.prefix_rfl)).trans h1, ⟨h2.workers, h2.queries, h2.trouble⟩, h3, h4, h5⟩
    · obtain ⟨⟨es, dm⟩, hm⟩ := mapBatches_total hv (q.db.trees.docs v.name.collection) [chunkIds p]
        (q.db.trees.entries v.name, q.db.trees.docMap v.name)
      have hstep : QStep s (fun _ => False) q _ := .chunk (tid := q.db.lastTid) hj he
        (by simp) (Nat.le_refl _) hm
      have hlt := chunkRest_lt he
      generalize chunkRest p = rest at hlt hstep
      have hn' := noTrouble_replace hn hj (b := .mapping ⟨v, m, some rest⟩) (by simp)
      obtain ⟨q', h1, h2, h3, h4, h5⟩ := ih
        (q := { q.commit q.db.lastTid none (chunkTrees q.db.trees v (chunkIds p) es dm) with
          work := pre ++ (t, .mapping ⟨v, m, some rest⟩) :: post }) ⟨hn.panic, hn.error, hn'⟩
        (p := rest) (by omega) hv rfl hl
      exact ⟨q', (Same.one hstep (List.prefix_rfl)).trans h1, ⟨h2.workers, h2.queries, h2.trouble⟩, h3, h4, h5⟩

/-- Any job runs to its end. -/
theorem run_one {q : QSys} (hn : NoTrouble q) {pre post : List (Jobs.Task VName × Work)}
    {t : Jobs.Task VName} {a : Work} (hj : q.work = pre ++ (t, a) :: post) (hv : Total a.view)
    (hl : q.evs.length + 1 < 2 ^ 64) :
    ∃ q', Alone s q q' ∧ Ran q q' ∧ q'.work = pre ++ post ∧ q'.mgr.queue = q.mgr.queue ∧
      q'.evs.length = q.evs.length + 1 := by
  cases a with
  | ended v r =>
    cases r with
    | some m => exact run_ended hn hj hl
    | none =>
      have := hn.work (t, .ended v none) (by rw [hj]; simp) v
      exact absurd rfl this
  | mapping j =>
    obtain ⟨v, m, pend⟩ := j
    cases pend with
    | some p => exact run_scanned hn (Nat.le_refl _) hv hj hl
    | none =>
      have hstep : QStep s (fun _ => False) q _ := .scan hj
      have hn' := noTrouble_replace hn hj
        (b := .mapping ⟨v, m, some (q.db.trees.invalidated v.name).keys⟩) (by simp)
      obtain ⟨q', h1, h2, h3, h4, h5⟩ := run_scanned (s := s)
        (q := { q with
          work := pre ++ (t, .mapping ⟨v, m, some (q.db.trees.invalidated v.name).keys⟩) :: post })
        ⟨hn.panic, hn.error, hn'⟩ (Nat.le_refl _) hv rfl hl
      exact ⟨q', (Same.one hstep (List.prefix_rfl)).trans h1, ⟨h2.workers, h2.queries, h2.trouble⟩, h3, h4, h5⟩

/-- All running jobs run to their ends. -/
theorem run_all (hdv : DistinctViews s) (htot : ∀ v ∈ s.views, Total v) {n : Nat} :
    ∀ {q : QSys}, QInv s q → NoTrouble q → q.work.length = n → q.evs.length + n < 2 ^ 64 →
    ∃ q', Alone s q q' ∧ Ran q q' ∧ q'.work = [] ∧ q'.mgr.queue = q.mgr.queue ∧
      q'.evs.length = q.evs.length + n := by
  induction n with
  | zero =>
    intro q hi hn hl hr
    exact ⟨q, .refl _, ⟨rfl, rfl, hn⟩, List.length_eq_zero_iff.mp hl, rfl, rfl⟩
  | succ n ih =>
    intro q hi hn hl hr
    cases hw : q.work with
    | nil => rw [hw] at hl; cases hl
    | cons y rest =>
      obtain ⟨t, a⟩ := y
      have hv : a.view ∈ s.views := hi.views (t, a) (by rw [hw]; simp)
      obtain ⟨q1, h1, h2, h3, h4, h5⟩ := run_one (s := s) hn (pre := []) (by rw [hw]; rfl)
        (htot _ hv) (by omega)
      rw [hw] at hl
      have hlen : q1.work.length = n := by
        rw [h3]; simpa using hl
      obtain ⟨q2, g1, g2, g3, g4, g5⟩ := ih (same_inv hdv hi h1) h2.trouble hlen (by omega)
      exact ⟨q2, h1.trans g1, h2.trans g2, g3, g4.trans h4, by omega⟩

/-- All queued jobs are run, one after the other, by one worker. -/
theorem run_queue (hdv : DistinctViews s) (htot : ∀ v ∈ s.views, Total v) {n : Nat} :
    ∀ {q : QSys}, QInv s q → NoTrouble q → q.work = [] → 0 < q.workers → q.mgr.queue.length = n →
    q.evs.length + 2 * n < 2 ^ 64 →
    ∃ q', Alone s q q' ∧ Ran q q' ∧ q'.work = [] ∧ q'.mgr.queue = [] ∧
      q'.evs.length = q.evs.length + 2 * n := by
  induction n with
  | zero =>
    intro q hi hn hw hk hl hr
    exact ⟨q, .refl _, ⟨rfl, rfl, hn⟩, hw, List.length_eq_zero_iff.mp hl, rfl⟩
  | succ n ih =>
    intro q hi hn hw hk hl hr
    cases hq : q.mgr.queue with
    | nil => rw [hq] at hl; cases hl
    | cons t rest =>
      obtain ⟨v, hv, hkey⟩ := hi.queue t (by rw [hq]; simp)
      have hz : q.db.lastTid ≠ 0 := hi.nonempty (by simp [Jobs.St.active, hq])
      have hstep : QStep s (fun _ => False) q _ :=
        .start hq hkey hv (by rw [hw]; exact hk) hz (by omega)
      have hs1 : Alone s q _ := .one hstep ⟨[.start t.id], rfl⟩
      have hi1 := same_inv hdv hi hs1
      have hn1 : NoTrouble { q with
          mgr := { q.mgr with queue := rest, running := q.mgr.running ++ [t] }
          evs := q.evs ++ [.start t.id]
          work := q.work ++ [(t, .mapping ⟨v, q.db.lastTid, none⟩)] } := by
        refine ⟨?_, ?_, ?_⟩
        · intro i hi
          simp only [List.mem_append, List.mem_singleton] at hi
          rcases hi with hi | hi
          · exact hn.panic i hi
          · cases hi
        · intro i hi
          simp only [List.mem_append, List.mem_singleton] at hi
          rcases hi with hi | hi
          · exact hn.error i hi
          · cases hi
        · intro y hy
          simp only [hw, List.nil_append, List.mem_singleton] at hy
          subst hy
          simp
      obtain ⟨q1, h1, h2, h3, h4, h5⟩ := run_one (s := s) hn1 (pre := []) (post := []) (t := t)
        (a := .mapping ⟨v, q.db.lastTid, none⟩) (by simp [hw]) (htot v hv)
        (by simp only [List.length_append, List.length_cons, List.length_nil]; omega)
      have hlen : q1.mgr.queue.length = n := by
        rw [h4]
        rw [hq] at hl
        simpa using hl
      have hev : q1.evs.length = q.evs.length + 2 := by
        rw [h5]; simp
      obtain ⟨q2, g1, g2, g3, g4, g5⟩ := ih (same_inv hdv hi1 h1) h2.trouble h3
        (by rw [h2.workers]; exact hk) hlen (by omega)
      refine ⟨q2, (hs1.trans h1).trans g1, ⟨?_, ?_, g2.trouble⟩, g3, g4, by omega⟩
      · rw [g2.workers, h2.workers]
      · rw [g2.queries, h2.queries]

/-- Handles and jobs the manager can still number. -/
def Room (q : QSys) (k : Nat) : Prop :=
  q.evs.length + 2 * q.mgr.queue.length + q.work.length + k < 2 ^ 64

/-- All jobs are run. -/
theorem drain (hdv : DistinctViews s) (htot : ∀ v ∈ s.views, Total v) {q : QSys} {k : Nat}
    (hi : QInv s q) (hn : NoTrouble q) (hk : 0 < q.workers) (hr : Room q k) :
    ∃ q', Alone s q q' ∧ Ran q q' ∧ q'.mgr.active = [] ∧ Room q' k := by
  unfold Room at *
  obtain ⟨q1, h1, h2, h3, h4, h5⟩ := run_all hdv htot hi hn rfl (by omega)
  have hi1 := same_inv hdv hi h1
  obtain ⟨q2, g1, g2, g3, g4, g5⟩ := run_queue hdv htot hi1 h2.trouble h3
    (by rw [h2.workers]; exact hk) rfl (by rw [h4, h5]; omega)
  have hi2 := same_inv hdv hi1 g1
  refine ⟨q2, h1.trans g1, h2.trans g2, ?_, ?_⟩
  · unfold Jobs.St.active
    rw [g4, hi2.run, g3]; rfl
  · rw [g3, g4, g5, h4, h5]
    simp only [List.length_nil]
    omega

/-- The call can return successfully. -/
def CanFinish (s : Schema) (q : QSys) (p : Nat) : Prop :=
  ∃ q' y, Alone s q q' ∧ q'.queries[p]? = some y ∧ y.phase = .done

theorem CanFinish.after {q q' : QSys} {p : Nat} (h : Alone s q q') (hf : CanFinish s q' p) :
    CanFinish s q p := by
  obtain ⟨r, y, h1, h2, h3⟩ := hf
  exact ⟨r, y, h.trans h1, h2, h3⟩

theorem set_get {l : List Query} {p : Nat} {x y : Query} (hx : l[p]? = some x) :
    (l.set p y)[p]? = some y := by
  rw [List.getElem?_set]
  have hlt : p < l.length := (List.getElem?_eq_some_iff.mp hx).1
  simp [hlt]

/-- A waiting call gets an answer. -/
theorem answer (hdv : DistinctViews s) (htot : ∀ v ∈ s.views, Total v) {q : QSys} {k p w id ch : Nat}
    {x : Query} (hi : QInv s q) (hn : NoTrouble q) (hk : 0 < q.workers) (hr : Room q k)
    (hx : q.queries[p]? = some x) (hp : x.phase = .wait w id ch) :
    ∃ q' m, Alone s q q' ∧ QInv s q' ∧ NoTrouble q' ∧ 0 < q'.workers ∧ Room q' k ∧
      q'.queries[p]? = some { x with phase := afterReceive w (some m) } ∧ (x.lookups = 2 → w ≤ m) := by
  obtain ⟨q1, h1, h2, h3, h4⟩ := drain hdv htot hi hn hk hr
  have hi1 := same_inv hdv hi h1
  have hx1 : q1.queries[p]? = some x := by rw [h2.queries]; exact hx
  have hok := hi1.queries x (List.mem_of_getElem? hx1)
  unfold QueryOk at hok
  rw [hp] at hok
  obtain ⟨-, -, -, -, j4, -, -, j7⟩ := hok
  have hex : ∃ m, q1.mgr.inbox ch = [some m] := by
    rcases hi1.mgr.waiting id ch j4 with ⟨_, ha, _, _⟩ | ⟨r, e1, e2, _⟩
    · rcases ha with ⟨t, ht, _⟩ | ha
      · rw [h3] at ht; cases ht
      · exact absurd ha (h2.trouble.panic id)
    · cases r with
      | some m => exact ⟨m, e2⟩
      | none =>
        exfalso
        have : none ∈ Jobs.results q1.evs id := by rw [e1]; simp
        unfold Jobs.results at this
        rw [List.mem_filterMap] at this
        obtain ⟨e, he, hf⟩ := this
        cases e with
        | complete i r =>
          simp only at hf
          by_cases hii : i = id
          · subst hii
            simp at hf
            subst hf
            exact h2.trouble.error i he
          · simp [hii] at hf
        | lookup => cases hf
        | enqueue => cases hf
        | start => cases hf
        | panic => cases hf
  obtain ⟨m, hm⟩ := hex
  have hstep : QStep s (fun _ => False) q1 _ := .receive hx1 hp hm
  have hs : Alone s q1 _ := .one hstep (List.prefix_rfl)
  refine ⟨_, m, h1.trans hs, same_inv hdv hi1 hs, ⟨h2.trouble.panic, h2.trouble.error, h2.trouble.work⟩,
    ?_, h4, set_get hx1, ?_⟩
  · show 0 < q1.workers
    rw [h2.workers]; exact hk
  · intro hl
    exact (j7 m hm).2 hl

theorem lookup_queue (st : Jobs.St VName (Option Nat)) (k : VName) :
    (st.lookup k).1.queue.length ≤ st.queue.length + 1 := by
  cases hk : st.keyed k with
  | some id => simp only [Jobs.St.lookup, hk, Jobs.St.newHandle]; omega
  | none =>
    simp only [Jobs.St.lookup, hk, Jobs.St.newHandle, Jobs.St.enqueue, List.length_append,
      List.length_cons, List.length_nil]
    omega

/-- A call in its loop gets a job to wait for. -/
theorem join (hdv : DistinctViews s) {q : QSys} {k p w : Nat} {x : Query} (hi : QInv s q)
    (hn : NoTrouble q) (hr : Room q (k + 3)) (hx : q.queries[p]? = some x) (hp : x.phase = .loop w)
    (hb : x.block = true) :
    ∃ q' id ch, Alone s q q' ∧ QInv s q' ∧ NoTrouble q' ∧ q'.workers = q.workers ∧ Room q' k ∧
      q'.queries[p]? = some { x with phase := .wait w id ch, lookups := x.lookups + 1 } := by
  have hl : q.evs.length + 1 < 2 ^ 64 := by unfold Room at hr; omega
  have hstep : QStep s (fun _ => False) q _ := .lookup hx hp hl
  have hs : Alone s q _ := .one hstep ⟨[_], rfl⟩
  refine ⟨_, (q.mgr.lookup x.view.name).2.1, (q.mgr.lookup x.view.name).2.2, hs, same_inv hdv hi hs,
    ⟨?_, ?_, hn.work⟩, rfl, ?_, ?_⟩
  · intro i hi
    simp only [QSys.looked, List.mem_append, List.mem_singleton] at hi
    rcases hi with hi | hi
    · exact hn.panic i hi
    · cases hi
  · intro i hi
    simp only [QSys.looked, List.mem_append, List.mem_singleton] at hi
    rcases hi with hi | hi
    · exact hn.error i hi
    · cases hi
  · have := lookup_queue q.mgr x.view.name
    unfold Room at hr ⊢
    simp only [QSys.looked, List.length_append, List.length_cons, List.length_nil]
    omega
  · have := set_get (y := { x with
        phase := afterLookup x.block w (q.mgr.lookup x.view.name).2.1 (q.mgr.lookup x.view.name).2.2
        lookups := x.lookups + 1 }) hx
    simp only [afterLookup, hb, if_true] at this ⊢
    exact this

section Finish
variable (hdv : DistinctViews s) (htot : ∀ v ∈ s.views, Total v)
include hdv htot

theorem finish_wait2 {q : QSys} {p w id ch : Nat} {x : Query} (hi : QInv s q) (hn : NoTrouble q)
    (hk : 0 < q.workers) (hr : Room q 0) (hx : q.queries[p]? = some x) (hp : x.phase = .wait w id ch)
    (h2 : x.lookups = 2) : CanFinish s q p := by
  obtain ⟨q', m, h1, _, _, _, _, h6, h7⟩ := answer hdv htot hi hn hk hr hx hp
  refine ⟨q', _, h1, h6, ?_⟩
  show afterReceive w (some m) = .done
  simp only [afterReceive, h7 h2, if_true]

theorem finish_loop1 {q : QSys} {p w : Nat} {x : Query} (hi : QInv s q) (hn : NoTrouble q)
    (hk : 0 < q.workers) (hr : Room q 3) (hx : q.queries[p]? = some x) (hp : x.phase = .loop w)
    (hb : x.block = true) (h1 : x.lookups = 1) : CanFinish s q p := by
  obtain ⟨q', id, ch, g1, g2, g3, g4, g5, g6⟩ := join (k := 0) hdv hi hn hr hx hp hb
  exact .after g1 (finish_wait2 hdv htot g2 g3 (by rw [g4]; exact hk) g5 g6 rfl (by simp [h1]))

theorem finish_wait1 {q : QSys} {p w id ch : Nat} {x : Query} (hi : QInv s q) (hn : NoTrouble q)
    (hk : 0 < q.workers) (hr : Room q 3) (hx : q.queries[p]? = some x) (hp : x.phase = .wait w id ch)
    (hb : x.block = true) (h1 : x.lookups = 1) : CanFinish s q p := by
  obtain ⟨q', m, g1, g2, g3, g4, g5, g6, _⟩ := answer hdv htot hi hn hk hr hx hp
  by_cases hm : w ≤ m
  · refine ⟨q', _, g1, g6, ?_⟩
    show afterReceive w (some m) = .done
    simp only [afterReceive, hm, if_true]
  · refine .after g1 (finish_loop1 hdv htot g2 g3 g4 g5 g6 (w := w) ?_ hb h1)
    show afterReceive w (some m) = .loop w
    simp only [afterReceive, hm, if_false]

theorem finish_loop0 {q : QSys} {p w : Nat} {x : Query} (hi : QInv s q) (hn : NoTrouble q)
    (hk : 0 < q.workers) (hr : Room q 6) (hx : q.queries[p]? = some x) (hp : x.phase = .loop w)
    (hb : x.block = true) (h0 : x.lookups = 0) : CanFinish s q p := by
  obtain ⟨q', id, ch, g1, g2, g3, g4, g5, g6⟩ := join (k := 3) hdv hi hn hr hx hp hb
  exact .after g1 (finish_wait1 hdv htot g2 g3 (by rw [g4]; exact hk) g5 g6 rfl hb (by simp [h0]))

theorem finish_check {q : QSys} {p w : Nat} {x : Query} (hi : QInv s q) (hn : NoTrouble q)
    (hk : 0 < q.workers) (hr : Room q 6) (hx : q.queries[p]? = some x) (hp : x.phase = .check w)
    (hb : x.block = true) (h0 : x.lookups = 0) : CanFinish s q p := by
  have hstep : QStep s (fun _ => False) q _ := .check hx hp
  have hs : Alone s q _ := .one hstep (List.prefix_rfl)
  have hi' := same_inv hdv hi hs
  by_cases hc : needsReindex (q.status x.view.name) w = true
  · refine .after hs (finish_loop0 hdv htot hi' ⟨hn.panic, hn.error, hn.work⟩ hk hr (set_get hx) (w := w) ?_ hb h0)
    show afterCheck _ w = .loop w
    unfold afterCheck
    rw [if_pos hc]
  · refine .after hs ⟨_, _, .refl _, set_get hx, ?_⟩
    show afterCheck _ w = .done
    unfold afterCheck
    rw [if_neg hc]

theorem finish_fresh {q : QSys} {p : Nat} {x : Query} (hi : QInv s q) (hn : NoTrouble q)
    (hk : 0 < q.workers) (hr : Room q 6) (hx : q.queries[p]? = some x) (hp : x.phase = .fresh)
    (hb : x.block = true) (h0 : x.lookups = 0) : CanFinish s q p := by
  have hstep : QStep s (fun _ => False) q _ := .read hx hp
  have hs : Alone s q _ := .one hstep (List.prefix_rfl)
  have hi' := same_inv hdv hi hs
  by_cases hc : q.db.lastTid = 0
  · refine .after hs ⟨_, _, .refl _, set_get hx, ?_⟩
    show afterRead _ = .done
    unfold afterRead
    rw [if_pos hc]
  · refine .after hs (finish_check hdv htot hi' ⟨hn.panic, hn.error, hn.work⟩ hk hr (set_get hx)
      (w := q.db.lastTid) ?_ hb h0)
    show afterRead _ = _
    unfold afterRead
    rw [if_neg hc]

end Finish

/-- **C75**, third part: in every reachable state, as long as no mapping job has failed or panicked, every
blocking call that has not returned can return successfully, by steps of the workers and of the call
alone: no transaction of anybody, no restart and no other query is needed.  So calls are never
deadlocked.  (Missing: jobs that panic, see `C75_violated_panic_blocks_view`; unique views, whose mapping
may fail with a unique violation.) -/
theorem C75_query_can_finish_partial (s : Schema) (hdv : DistinctViews s)
    (htot : ∀ v ∈ s.views, Total v) (A : List Operation → Prop) (v : View) (q₀ q : QSys)
    (hst : QStart v q₀) (he : QExec s A q₀ q) (hn : NoTrouble q) (hk : 0 < q.workers)
    (hroom : Room q 6) (p : Nat) (x : Query) (hx : q.queries[p]? = some x) (hb : x.block = true)
    (hf : x.phase ≠ .failed) :
    ∃ q' y, Alone s q q' ∧ q'.queries[p]? = some y ∧ y.phase = .done := by
  have hi := qexec_inv hdv (qinv_start hst) he
  have hok := hi.queries x (List.mem_of_getElem? hx)
  unfold QueryOk at hok
  have r3 : Room q 3 := by unfold Room at hroom ⊢; omega
  have r0 : Room q 0 := by unfold Room at hroom ⊢; omega
  cases hp : x.phase with
  | fresh => rw [hp] at hok; exact finish_fresh hdv htot hi hn hk hroom hx hp hb hok
  | check w => rw [hp] at hok; exact finish_check hdv htot hi hn hk hroom hx hp hb hok.1
  | loop w =>
    rw [hp] at hok
    obtain ⟨-, -, h2, -⟩ := hok
    by_cases h : x.lookups = 0
    · exact finish_loop0 hdv htot hi hn hk hroom hx hp hb h
    · exact finish_loop1 hdv htot hi hn hk r3 hx hp hb (by omega)
  | wait w id ch =>
    rw [hp] at hok
    obtain ⟨-, -, h2, h3, -⟩ := hok
    by_cases h : x.lookups = 1
    · exact finish_wait1 hdv htot hi hn hk r3 hx hp hb h
    · exact finish_wait2 hdv htot hi hn hk r0 hx hp (by omega)
  | done => exact ⟨q, x, .refl _, hx, hp⟩
  | failed => exact absurd hp hf

end Bonsai.Store.Wait
