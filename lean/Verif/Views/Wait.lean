import Verif.Views.C29
import Verif.Tasks.C44

/-!
# Queries that update their view first

`TaskManager::update_view_if_needed`, `crates/bonsaidb-local/src/tasks.rs:55-110`, run by any number of
queries at once, together with the mapping jobs (`views/mapper.rs:42-100`), the job manager of C44
(`tasks/manager/jobs.rs`) and everything else that commits (`Verif/Views/System.lean`).

Simplified: integrity checks are complete (tasks.rs:62-64; C32 is about them), so the view starts as
`VStart` says; only mapping jobs are shown, other jobs have other keys; and a process creates fewer than
2^64 jobs and handles (job ids are `u64` and wrap).
-/
set_option linter.unusedSimpArgs false
set_option linter.unusedVariables false

namespace Bonsai.Store.Wait
open Bonsai Bonsai.Names Bonsai.Store

/-- What a worker thread is doing: `Mapper::execute` (mapper.rs:42-100), or between its return and
`job_completed` (managed_job.rs:21-26); the result is the transaction id, or an error (`none`). -/
inductive Work where
  | mapping (j : MapJob)
  | ended (v : View) (r : Option Nat)

/-- The view a worker maps: `Map`, mapper.rs:30-35. -/
def Work.view : Work → View
  | .mapping j => j.view
  | .ended v _ => v

/-- The mapping job, while it is executing. -/
def Work.job : Work → Option MapJob
  | .mapping j => some j
  | .ended _ _ => none

/-- Where a call of `update_view_if_needed` is: not begun; the current transaction id was read (line
67); the loop is about to look up a job (86-93); it waits for the result of job `id` on channel `ch`
(100); returned; failed. -/
inductive Phase where
  | fresh
  | check (w : Nat)
  | loop (w : Nat)
  | wait (w id ch : Nat)
  | done
  | failed
  deriving DecidableEq

/-- A call of `update_view_if_needed`, tasks.rs:55-60. `lookups` is ghost state: how many jobs it has
looked up. -/
structure Query where
  view : View
  block : Bool
  phase : Phase
  lookups : Nat

/-- A running process: the committed data and its history (`VSys`), `view_update_last_status`
(tasks.rs:44), the number of living worker threads (storage.rs:278-280), the job manager with its
history (C44), what the workers do, and the calls. -/
structure QSys where
  db : Db
  past : List (Nat × Trees)
  results : VName → List Nat
  status : VName → Option Nat
  workers : Nat
  mgr : Jobs.St VName (Option Nat)
  evs : List (Jobs.Event VName (Option Nat))
  work : List (Jobs.Task VName × Work)
  queries : List Query

/-- The system of `Verif/Views/System.lean` this is an extension of. -/
def QSys.sys (q : QSys) : VSys := ⟨q.db, q.work.filterMap (fun y => y.2.job), q.results, q.past⟩

/-- Commit new trees under a transaction id. -/
def QSys.commit (q : QSys) (tid : Nat) (data : Option Changes) (t : Trees) : QSys :=
  { q with
    db := ⟨t, q.db.log ++ [(tid, data)]⟩
    past := q.past ++ [(tid + 1, t)] }

/-- Is the recorded status too old? tasks.rs:69-82 (`last_transaction_indexed < current`; no status:
yes). -/
def needsReindex (status : Option Nat) (w : Nat) : Bool :=
  match status with
  | some m => decide (m < w)
  | none => true

/-- After reading the last transaction id, tasks.rs:66-67 (`0` is `None`). -/
def afterRead (tid : Nat) : Phase := if tid = 0 then .done else .check tid

/-- After comparing with the status, tasks.rs:69-84. -/
def afterCheck (status : Option Nat) (w : Nat) : Phase :=
  if needsReindex status w then .loop w else .done

/-- After looking up a job, tasks.rs:96-98. -/
def afterLookup (block : Bool) (w id ch : Nat) : Phase := if block then .wait w id ch else .done

/-- After receiving a result, tasks.rs:100-103. -/
def afterReceive (w : Nat) : Option Nat → Phase
  | none => .failed
  | some m => if w ≤ m then .done else .loop w

/-- What is left of a call when the process ends. -/
def Query.stop (x : Query) : Query :=
  { x with phase := match x.phase with
    | .done => .done
    | _ => .failed }

/-- The manager after a lookup of the mapping job of a view, manager.rs:42-48. -/
def QSys.looked (q : QSys) (v : VName) : QSys :=
  { q with
    mgr := (q.mgr.lookup v).1
    evs := q.evs ++ [.lookup v (q.mgr.lookup v).2.1 (q.mgr.lookup v).2.2] }

/-- The manager after a job panicked, managed_job.rs:21-26: `job_completed` is not called and the worker
thread is gone. -/
def QSys.panicked (q : QSys) (t : Jobs.Task VName) (work : List (Jobs.Task VName × Work)) : QSys :=
  { q with
    mgr := { q.mgr with running := work.map (·.1) }
    evs := q.evs ++ [.panic t.id]
    work := work
    workers := q.workers - 1 }

/-- The manager after `job_completed`, manager.rs:50-58. -/
def QSys.completed (q : QSys) (t : Jobs.Task VName) (r : Option Nat)
    (work : List (Jobs.Task VName × Work)) : QSys :=
  { q with
    mgr := ({ q.mgr with running := work.map (·.1) } : Jobs.St VName (Option Nat)).completed t r
    evs := q.evs ++ [.complete t.id r]
    work := work }

/-- One step of anything in the process. `A` says which transactions may be submitted. -/
inductive QStep (s : Schema) (A : List Operation → Prop) : QSys → QSys → Prop
  /-- A document transaction commits. -/
  | transaction {q tid ops t ch rs} (ha : A ops) (hp : prepare s q.db.trees ops = .ok (t, ch, rs))
      (htid : q.db.lastTid ≤ tid) : QStep s A q (q.commit tid (some ch) t)
  /-- Something else commits: documents and views are not touched. -/
  | other {q tid} (htid : q.db.lastTid ≤ tid) : QStep s A q (q.commit tid none q.db.trees)
  /-- A free worker takes the next job (manager.rs:71-75) and reads the last transaction id
  (mapper.rs:77-80); in one step, nothing of the job is visible in between. -/
  | start {q t rest v} (hq : q.mgr.queue = t :: rest) (hk : t.key = some v.name) (hv : v ∈ s.views)
      (hw : q.work.length < q.workers) (hz : q.db.lastTid ≠ 0) (hl : q.evs.length + 1 < 2 ^ 64) :
      QStep s A q { q with
        mgr := { q.mgr with queue := rest, running := q.mgr.running ++ [t] }
        evs := q.evs ++ [.start t.id]
        work := q.work ++ [(t, .mapping ⟨v, q.db.lastTid, none⟩)] }
  /-- There is no transaction: `expect` panics, mapper.rs:77-80. -/
  | startPanics {q t rest} (hq : q.mgr.queue = t :: rest)
      (hw : q.work.length < q.workers) (hz : q.db.lastTid = 0) (hl : q.evs.length + 2 < 2 ^ 64) :
      QStep s A q { q with
        mgr := { q.mgr with queue := rest }
        evs := q.evs ++ [.start t.id] ++ [.panic t.id]
        workers := q.workers - 1 }
  /-- The job reads the invalidated documents. -/
  | scan {q pre post t v m} (hj : q.work = pre ++ (t, .mapping ⟨v, m, none⟩) :: post) :
      QStep s A q { q with
        work := pre ++ (t, .mapping ⟨v, m, some (q.db.trees.invalidated v.name).keys⟩) :: post }
  /-- The job maps and commits a chunk. -/
  | chunk {q pre post t v m p tid bs es dm}
      (hj : q.work = pre ++ (t, .mapping ⟨v, m, some p⟩) :: post)
      (hp : p ≠ []) (hb : bs.flatten.Perm (chunkIds p)) (htid : q.db.lastTid ≤ tid)
      (hm : mapBatches v (q.db.trees.docs v.name.collection) bs
        (q.db.trees.entries v.name, q.db.trees.docMap v.name) = .ok (es, dm)) :
      QStep s A q { q.commit tid none (chunkTrees q.db.trees v (chunkIds p) es dm) with
        work := pre ++ (t, .mapping ⟨v, m, some (chunkRest p)⟩) :: post }
  /-- The job is through: `mark_view_updated`, mapper.rs:93-98 and tasks.rs:157-168. -/
  | finish {q pre post t v m} (hj : q.work = pre ++ (t, .mapping ⟨v, m, some []⟩) :: post) :
      QStep s A q { q with
        results := upd q.results v.name (q.results v.name ++ [m])
        status := upd q.status v.name (some m)
        work := pre ++ (t, .ended v (some m)) :: post }
  /-- The job fails (`?` anywhere in `execute`). -/
  | fail {q pre post t j} (hj : q.work = pre ++ (t, .mapping j) :: post) :
      QStep s A q { q with work := pre ++ (t, .ended j.view none) :: post }
  /-- The job panics, for example in the user's `map`. -/
  | panic {q pre post t j} (hj : q.work = pre ++ (t, .mapping j) :: post)
      (hl : q.evs.length + 1 < 2 ^ 64) : QStep s A q (q.panicked t (pre ++ post))
  /-- `job_completed`, jobs.rs:104-124. -/
  | complete {q pre post t v r} (hj : q.work = pre ++ (t, .ended v r) :: post)
      (hl : q.evs.length + 1 < 2 ^ 64) :
      QStep s A q (q.completed t r (pre ++ post))
  /-- A query calls `update_view_if_needed` (database.rs:209-213, 240-252). -/
  | call {q v block} (hv : v ∈ s.views) :
      QStep s A q { q with queries := q.queries ++ [⟨v, block, .fresh, 0⟩] }
  /-- It reads the last transaction id. -/
  | read {q p x} (hx : q.queries[p]? = some x) (hp : x.phase = .fresh) :
      QStep s A q { q with
        queries := q.queries.set p { x with phase := afterRead q.db.lastTid } }
  /-- It compares with the status. -/
  | check {q p x w} (hx : q.queries[p]? = some x) (hp : x.phase = .check w) :
      QStep s A q { q with
        queries := q.queries.set p { x with phase := afterCheck (q.status x.view.name) w } }
  /-- It looks up or enqueues the mapping job of the view. -/
  | lookup {q p x w} (hx : q.queries[p]? = some x) (hp : x.phase = .loop w)
      (hl : q.evs.length + 1 < 2 ^ 64) :
      QStep s A q { q.looked x.view.name with
        queries := q.queries.set p { x with
          phase := afterLookup x.block w (q.mgr.lookup x.view.name).2.1 (q.mgr.lookup x.view.name).2.2
          lookups := x.lookups + 1 } }
  /-- It receives the result of the job. -/
  | receive {q p x w id ch r rest} (hx : q.queries[p]? = some x) (hp : x.phase = .wait w id ch)
      (hr : q.mgr.inbox ch = r :: rest) :
      QStep s A q { q with queries := q.queries.set p { x with phase := afterReceive w r } }
  /-- Somebody else asks for the mapping job: an integrity scan after its commit
  (integrity_scanner.rs:110-123). -/
  | background {q v} (hv : v ∈ s.views) (hz : q.db.lastTid ≠ 0) (hl : q.evs.length + 1 < 2 ^ 64) :
      QStep s A q (q.looked v.name)
  /-- The process stops or crashes and starts again with some number of workers. -/
  | restart {q} (n : Nat) :
      QStep s A q { q with
        results := fun _ => []
        status := fun _ => none
        workers := n
        mgr := .new
        evs := []
        work := []
        queries := q.queries.map Query.stop }

inductive QExec (s : Schema) (A : List Operation → Prop) : QSys → QSys → Prop
  | refl (q) : QExec s A q q
  | step {q q' q''} (h : QExec s A q q') (hs : QStep s A q' q'') : QExec s A q q''

theorem QExec.trans {s : Schema} {A : List Operation → Prop} {a b c : QSys} (h1 : QExec s A a b)
    (h2 : QExec s A b c) : QExec s A a c := by
  induction h2 with
  | refl => exact h1
  | step _ hs ih => exact .step ih hs

/-- A process that has just started, with a view as `VStart` says. -/
structure QStart (v : View) (q : QSys) : Prop where
  sys : VStart v q.sys
  status : q.status = fun _ => none
  mgr : q.mgr = .new
  evs : q.evs = []
  work : q.work = []
  queries : q.queries = []

/-! ## It is an extension of the system of C29 and C31 -/

/-- Every step is a step of the smaller system, or invisible there. -/
theorem qstep_sys {s : Schema} {A : List Operation → Prop} {q q' : QSys} (h : QStep s A q q') :
    q'.sys = q.sys ∨ VStep s q.sys q'.sys := by
  cases h with
  | transaction ha hp htid => exact .inr (.transaction (σ := q.sys) hp htid)
  | other htid => exact .inr (.other (σ := q.sys) htid)
  | @start t rest v hq hk hv hw hz hl =>
    refine .inr ?_
    have := VStep.begin (s := s) (σ := q.sys) hv
    simpa [QSys.sys, Work.job] using this
  | startPanics => exact .inl rfl
  | @scan pre post t v m hj =>
    refine .inr ?_
    have := VStep.scan (s := s) (σ := q.sys) (pre := pre.filterMap fun y => y.2.job)
      (post := post.filterMap fun y => y.2.job) (v := v) (m := m) (by simp [QSys.sys, hj, Work.job])
    simpa [QSys.sys, Work.job] using this
  | @chunk pre post t v m p tid bs es dm hj hp hb htid hm =>
    refine .inr ?_
    have := VStep.chunk (s := s) (σ := q.sys) (pre := pre.filterMap fun y => y.2.job)
      (post := post.filterMap fun y => y.2.job) (v := v) (m := m) (p := p)
      (by simp [QSys.sys, hj, Work.job]) hp hb htid hm
    simpa [QSys.sys, QSys.commit, VSys.commit, Work.job] using this
  | @finish pre post t v m hj =>
    refine .inr ?_
    have := VStep.done (s := s) (σ := q.sys) (pre := pre.filterMap fun y => y.2.job)
      (post := post.filterMap fun y => y.2.job) (v := v) (m := m) (by simp [QSys.sys, hj, Work.job])
    simpa [QSys.sys, Work.job] using this
  | @fail pre post t j hj =>
    refine .inr ?_
    have := VStep.fail (s := s) (σ := q.sys) (pre := pre.filterMap fun y => y.2.job)
      (post := post.filterMap fun y => y.2.job) (j := j) (by simp [QSys.sys, hj, Work.job])
    simpa [QSys.sys, Work.job] using this
  | @panic pre post t j hj hl =>
    refine .inr ?_
    have := VStep.fail (s := s) (σ := q.sys) (pre := pre.filterMap fun y => y.2.job)
      (post := post.filterMap fun y => y.2.job) (j := j) (by simp [QSys.sys, hj, Work.job])
    simpa [QSys.sys, QSys.panicked, Work.job] using this
  | complete hj hl => exact .inl (by simp [QSys.sys, QSys.completed, hj, Work.job])
  | call => exact .inl rfl
  | read => exact .inl rfl
  | check => exact .inl rfl
  | lookup => exact .inl rfl
  | receive => exact .inl rfl
  | background => exact .inl rfl
  | restart n => exact .inr (.restart (σ := q.sys))

theorem qexec_sys {s : Schema} {A : List Operation → Prop} {q q' : QSys} (h : QExec s A q q') :
    VExec s q.sys q'.sys := by
  induction h with
  | refl => exact .refl _
  | step _ hs ih =>
    rcases qstep_sys hs with e | h
    · rw [e]; exact ih
    · exact .step ih h

end Bonsai.Store.Wait
