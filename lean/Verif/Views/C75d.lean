import Verif.Views.C75c

/-!
# C75: concrete runs
-/
set_option linter.unusedSimpArgs false
set_option linter.unusedVariables false

namespace Bonsai.Store.Wait
open Bonsai Bonsai.Names Bonsai.Store

/-- A process that has just started, with an empty database and one worker. -/
def exQ : QSys := ⟨.empty, [(0, .empty)], fun _ => [], fun _ => none, 1, .new, [], [], []⟩

theorem exQ_start (v : View) : QStart v exQ where
  sys := exStart_start v
  status := rfl
  mgr := rfl
  evs := rfl
  work := rfl
  queries := rfl

abbrev exLS : Schema := exWith exLazy

abbrev anyOps : List Operation → Prop := fun _ => True

theorem exIn : exLazy ∈ exLS.views := by simp [exWith]

theorem exRoom {n : Nat} (h : n < 32) : n < 2 ^ 64 := Nat.lt_trans h (by decide)

/-- One document is committed. -/
def exIns : List Operation := [⟨exC, .insert (some [7]) [5]⟩]

/-- A chunk of one document. -/
theorem exChunkStep {s : Schema} {A : List Operation → Prop} {q : QSys} {t : Jobs.Task VName} {v : View}
    {m tid : Nat} {es dm} (hj : q.work = [(t, .mapping ⟨v, m, some [[7]]⟩)]) (htid : q.db.lastTid ≤ tid)
    (hm : mapBatches v (q.db.trees.docs v.name.collection) [[[7]]]
        (q.db.trees.entries v.name, q.db.trees.docMap v.name) = .ok (es, dm)) :
    QStep s A q { q.commit tid none (chunkTrees q.db.trees v [[7]] es dm) with
      work := [(t, .mapping ⟨v, m, some []⟩)] } := by
  have := QStep.chunk (s := s) (A := A) (q := q) (pre := []) (post := []) (p := [[7]]) (bs := [[[7]]])
    hj (by simp) (by rw [exChunk.1]; exact .refl _) htid hm
  rw [exChunk.1, exChunk.2] at this
  exact this

/-- The trees and changes of the insert. -/
def exPrep : Trees × Changes :=
  match prepare exLS .empty exIns with
  | .ok (t, c, _) => (t, c)
  | .error _ => (.empty, ⟨[], []⟩)

/-- The entries after the document is mapped. -/
def exMapped :=
  match mapBatches exLazy (exPrep.1.docs exLazy.name.collection) [[[7]]]
    (exPrep.1.entries exLazy.name, exPrep.1.docMap exLazy.name) with
  | .ok r => r
  | .error _ => (.empty, .empty)

/-- The trees after the mapping job. -/
def exT2 : Trees := chunkTrees exPrep.1 exLazy [[7]] exMapped.1 exMapped.2

/-- The mapping jobs of the runs. -/
def exTask1 : Jobs.Task VName := ⟨1, some exVName⟩
def exTask2 : Jobs.Task VName := ⟨2, some exVName⟩

abbrev ExMgr := Jobs.St VName (Option Nat)
abbrev ExEv := Jobs.Event VName (Option Nat)

/-- One job asked for; running; done. -/
def exM1 : ExMgr := ((Jobs.St.new : ExMgr).lookup exVName).1
def exM2 : ExMgr := { exM1 with queue := [], running := [exTask1] }
def exM3 : ExMgr := ({ exM2 with running := [] } : ExMgr).completed exTask1 (some 2)
/-- A second job is asked for. -/
def exM4 : ExMgr := (exM3.lookup exVName).1

def exE1 : List ExEv := [.lookup exVName 1 0]
def exE2 : List ExEv := [.lookup exVName 1 0, .start 1]
def exE3 : List ExEv := [.lookup exVName 1 0, .start 1, .complete 1 (some 2)]

/-! First run: a commit, then a query that waits for its job. -/

def exA1 : QSys := exQ.commit 1 (some exPrep.2) exPrep.1
def exA2 : QSys := { exA1 with queries := [⟨exLazy, true, .fresh, 0⟩] }
def exA3 : QSys := { exA1 with queries := [⟨exLazy, true, .check 2, 0⟩] }
def exA4 : QSys := { exA1 with queries := [⟨exLazy, true, .loop 2, 0⟩] }
def exA5 : QSys := { exA1 with mgr := exM1, evs := exE1, queries := [⟨exLazy, true, .wait 2 1 0, 1⟩] }
def exA6 : QSys := { exA5 with
  mgr := exM2, evs := exE2, work := [(exTask1, .mapping ⟨exLazy, 2, none⟩)] }
def exA7 : QSys := { exA6 with work := [(exTask1, .mapping ⟨exLazy, 2, some [[7]]⟩)] }
def exA8 : QSys := { exA6.commit 3 none exT2 with work := [(exTask1, .mapping ⟨exLazy, 2, some []⟩)] }
def exA9 : QSys := { exA8 with
  results := upd (fun _ => []) exVName [2]
  status := upd (fun _ => none) exVName (some 2)
  work := [(exTask1, .ended exLazy (some 2))] }
def exA10 : QSys := { exA9 with mgr := exM3, evs := exE3, work := [] }
def exA11 : QSys := { exA10 with queries := [⟨exLazy, true, .done, 1⟩] }

/-- A query comes when a transaction is committed. -/
theorem exA_begin : QExec exLS anyOps exQ exA2 := by
  refine .step (q' := exA1) (.step (.refl _) (QStep.transaction (tid := 1) (ops := exIns) trivial
    (rs := [.updated exC ⟨[7], ⟨0, [5]⟩⟩]) ?_ (Nat.zero_le _))) (.call (v := exLazy) (block := true) exIn)
  rfl

/-- It waits for a job that is running. -/
theorem exA_wait : QExec exLS anyOps exA2 exA6 := by
  have h1 : QStep exLS anyOps exA2 exA3 :=
    QStep.read (q := exA2) (p := 0) (x := ⟨exLazy, true, .fresh, 0⟩) rfl rfl
  have h2 : QStep exLS anyOps exA3 exA4 :=
    QStep.check (q := exA3) (p := 0) (x := ⟨exLazy, true, .check 2, 0⟩) (w := 2) rfl rfl
  have h3 : QStep exLS anyOps exA4 exA5 :=
    QStep.lookup (q := exA4) (p := 0) (x := ⟨exLazy, true, .loop 2, 0⟩) (w := 2) rfl rfl
      (exRoom (by decide))
  have h4 : QStep exLS anyOps exA5 exA6 :=
    QStep.start (q := exA5) (t := exTask1) (rest := []) (v := exLazy) rfl rfl exIn (by decide) (by decide)
      (exRoom (by decide))
  exact .step (.step (.step (.step (.refl _) h1) h2) h3) h4

/-- The job runs, and the query returns. -/
theorem exA_done : QExec exLS anyOps exA6 exA11 := by
  have h1 : QStep exLS anyOps exA6 exA7 :=
    QStep.scan (q := exA6) (pre := []) (post := []) (t := exTask1) (v := exLazy) (m := 2) rfl
  have h2 : QStep exLS anyOps exA7 exA8 :=
    exChunkStep (q := exA7) (t := exTask1) (v := exLazy) (m := 2) (tid := 3) (es := exMapped.1)
      (dm := exMapped.2) rfl (by decide) rfl
  have h3 : QStep exLS anyOps exA8 exA9 :=
    QStep.finish (q := exA8) (pre := []) (post := []) (t := exTask1) (v := exLazy) (m := 2) rfl
  have h4 : QStep exLS anyOps exA9 exA10 :=
    QStep.complete (q := exA9) (pre := []) (post := []) (t := exTask1) (v := exLazy) (r := some 2) rfl
      (exRoom (by decide))
  have h5 : QStep exLS anyOps exA10 exA11 :=
    QStep.receive (q := exA10) (p := 0) (x := ⟨exLazy, true, .wait 2 1 0, 1⟩) (w := 2) (id := 1) (ch := 0)
      (r := some 2) (rest := []) rfl rfl rfl
  exact .step (.step (.step (.step (.step (.refl _) h1) h2) h3) h4) h5

/-- `C75_query_waits_long_enough` and `C75_quiet_query_is_exact` apply to this run, and the query sees
the document. -/
example : QStart exLazy exQ ∧ NotBegun exA2 0 ∧ QExec exLS anyOps exA2 exA11 ∧
    exA11.queries[0]? = some ⟨exLazy, true, .done, 1⟩ ∧
    found (exA11.db.trees.entries exVName) [5] [7] = some ⟨⟨[7], ⟨0, [5]⟩⟩, [1]⟩ :=
  ⟨exQ_start _, fun _ h => by cases h; rfl, exA_wait.trans exA_done, rfl, rfl⟩

/-! Then a second query of the same view. -/

def exB1 : QSys := { exA11 with queries := [⟨exLazy, true, .done, 1⟩, ⟨exLazy, true, .fresh, 0⟩] }
def exB2 : QSys := { exA11 with queries := [⟨exLazy, true, .done, 1⟩, ⟨exLazy, true, .check 4, 0⟩] }
def exB3 : QSys := { exA11 with queries := [⟨exLazy, true, .done, 1⟩, ⟨exLazy, true, .loop 4, 0⟩] }
def exB4 : QSys := { exA11 with
  mgr := exM4
  evs := exE3 ++ [.lookup exVName 2 1]
  queries := [⟨exLazy, true, .done, 1⟩, ⟨exLazy, true, .wait 4 2 1, 1⟩] }

theorem exB_wait : QExec exLS anyOps exA11 exB4 := by
  have h1 : QStep exLS anyOps exA11 exB1 := QStep.call (q := exA11) (v := exLazy) (block := true) exIn
  have h2 : QStep exLS anyOps exB1 exB2 :=
    QStep.read (q := exB1) (p := 1) (x := ⟨exLazy, true, .fresh, 0⟩) rfl rfl
  have h3 : QStep exLS anyOps exB2 exB3 :=
    QStep.check (q := exB2) (p := 1) (x := ⟨exLazy, true, .check 4, 0⟩) (w := 4) rfl rfl
  have h4 : QStep exLS anyOps exB3 exB4 :=
    QStep.lookup (q := exB3) (p := 1) (x := ⟨exLazy, true, .loop 4, 0⟩) (w := 4) rfl rfl
      (exRoom (by decide))
  exact .step (.step (.step (.step (.refl _) h1) h2) h3) h4

/-- **C75 is violated** where the code promises that a view that is up to date is not mapped again
(tasks.rs:69-71): the job that updates the view commits, and its commit is newer than the transaction it
reports, so that the next query of the same view, although no document was written and nothing is left
to map, asks for another job and waits for it. -/
theorem C75_violated_up_to_date_view_mapped_again :
    ∃ (s : Schema) (v : View) (q₀ q₁ q₂ : QSys), DistinctViews s ∧ v ∈ s.views ∧ QStart v q₀ ∧
      QExec s anyOps q₀ q₁ ∧ q₁.queries = [⟨v, true, .done, 1⟩] ∧ q₁.mgr.active = [] ∧
      (q₁.db.trees.invalidated v.name).keys = [] ∧
      QExec s anyOps q₁ q₂ ∧ q₂.db = q₁.db ∧
      (∃ w id ch, q₂.queries = [⟨v, true, .done, 1⟩, ⟨v, true, .wait w id ch, 1⟩] ∧
        q₂.mgr.inbox ch = []) :=
  ⟨exLS, exLazy, exQ, exA11, exB4, exDistinct _, exIn, exQ_start _,
    (exA_begin.trans exA_wait).trans exA_done, rfl, rfl, rfl, exB_wait, rfl, 4, 2, 1, rfl, rfl⟩

/-! ## Two jobs can be needed -/

def exC1 : QSys := exQ.commit 0 none .empty
def exC2 : QSys := { exC1 with mgr := exM1, evs := exE1 }
def exC3 : QSys := { exC2 with
  mgr := exM2, evs := exE2, work := [(exTask1, .mapping ⟨exLazy, 1, none⟩)] }
def exC4 : QSys := exC3.commit 1 (some exPrep.2) exPrep.1
def exC5 : QSys := { exC4 with queries := [⟨exLazy, true, .fresh, 0⟩] }
def exC6 : QSys := { exC4 with queries := [⟨exLazy, true, .check 2, 0⟩] }
def exC7 : QSys := { exC4 with queries := [⟨exLazy, true, .loop 2, 0⟩] }
def exN1 : ExMgr := (exM2.lookup exVName).1
def exC8 : QSys := { exC4 with
  mgr := exN1
  evs := [.lookup exVName 1 0, .start 1, .lookup exVName 1 1]
  queries := [⟨exLazy, true, .wait 2 1 1, 1⟩] }
def exC9 : QSys := { exC8 with work := [(exTask1, .mapping ⟨exLazy, 1, some [[7]]⟩)] }
def exC10 : QSys := { exC8.commit 3 none exT2 with
  work := [(exTask1, .mapping ⟨exLazy, 1, some []⟩)] }
def exC11 : QSys := { exC10 with
  results := upd (fun _ => []) exVName [1]
  status := upd (fun _ => none) exVName (some 1)
  work := [(exTask1, .ended exLazy (some 1))] }
def exN2 : ExMgr := ({ exN1 with running := [] } : ExMgr).completed exTask1 (some 1)
def exC12 : QSys := { exC11 with
  mgr := exN2
  evs := [.lookup exVName 1 0, .start 1, .lookup exVName 1 1, .complete 1 (some 1)]
  work := [] }
def exC13 : QSys := { exC12 with queries := [⟨exLazy, true, .loop 2, 1⟩] }
def exN3 : ExMgr := (exN2.lookup exVName).1
def exC14 : QSys := { exC12 with
  mgr := exN3
  evs := [.lookup exVName 1 0, .start 1, .lookup exVName 1 1, .complete 1 (some 1), .lookup exVName 2 2]
  queries := [⟨exLazy, true, .wait 2 2 2, 2⟩] }
def exN4 : ExMgr := { exN3 with queue := [], running := [exTask2] }
def exC15 : QSys := { exC14 with
  mgr := exN4
  evs := [.lookup exVName 1 0, .start 1, .lookup exVName 1 1, .complete 1 (some 1), .lookup exVName 2 2,
    .start 2]
  work := [(exTask2, .mapping ⟨exLazy, 4, none⟩)] }
def exC16 : QSys := { exC15 with work := [(exTask2, .mapping ⟨exLazy, 4, some []⟩)] }
def exC17 : QSys := { exC15 with
  results := upd (upd (fun _ => []) exVName [1]) exVName [1, 4]
  status := upd (upd (fun _ => none) exVName (some 1)) exVName (some 4)
  work := [(exTask2, .ended exLazy (some 4))] }
def exN5 : ExMgr := ({ exN4 with running := [] } : ExMgr).completed exTask2 (some 4)
def exC18 : QSys := { exC17 with
  mgr := exN5
  evs := [.lookup exVName 1 0, .start 1, .lookup exVName 1 1, .complete 1 (some 1), .lookup exVName 2 2,
    .start 2, .complete 2 (some 4)]
  work := [] }
def exC19 : QSys := { exC18 with queries := [⟨exLazy, true, .done, 2⟩] }

/-- A job is running when a transaction commits and a query comes. -/
theorem exC_begin : QExec exLS anyOps exQ exC5 := by
  have h1 : QStep exLS anyOps exQ exC1 := QStep.other (q := exQ) (tid := 0) (Nat.zero_le _)
  have h2 : QStep exLS anyOps exC1 exC2 :=
    QStep.background (q := exC1) (v := exLazy) exIn (by decide) (exRoom (by decide))
  have h3 : QStep exLS anyOps exC2 exC3 :=
    QStep.start (q := exC2) (t := exTask1) (rest := []) (v := exLazy) rfl rfl exIn (by decide) (by decide)
      (exRoom (by decide))
  have h4 : QStep exLS anyOps exC3 exC4 :=
    QStep.transaction (q := exC3) (tid := 1) (ops := exIns) (t := exPrep.1) (ch := exPrep.2)
      (rs := [.updated exC ⟨[7], ⟨0, [5]⟩⟩]) trivial rfl (by decide)
  have h5 : QStep exLS anyOps exC4 exC5 := QStep.call (q := exC4) (v := exLazy) (block := true) exIn
  exact .step (.step (.step (.step (.step (.refl _) h1) h2) h3) h4) h5

/-- It joins the running job, which reports a transaction that is too old. -/
theorem exC_first : QExec exLS anyOps exC5 exC13 := by
  have h1 : QStep exLS anyOps exC5 exC6 :=
    QStep.read (q := exC5) (p := 0) (x := ⟨exLazy, true, .fresh, 0⟩) rfl rfl
  have h2 : QStep exLS anyOps exC6 exC7 :=
    QStep.check (q := exC6) (p := 0) (x := ⟨exLazy, true, .check 2, 0⟩) (w := 2) rfl rfl
  have h3 : QStep exLS anyOps exC7 exC8 :=
    QStep.lookup (q := exC7) (p := 0) (x := ⟨exLazy, true, .loop 2, 0⟩) (w := 2) rfl rfl
      (exRoom (by decide))
  have h4 : QStep exLS anyOps exC8 exC9 :=
    QStep.scan (q := exC8) (pre := []) (post := []) (t := exTask1) (v := exLazy) (m := 1) rfl
  have h5 : QStep exLS anyOps exC9 exC10 :=
    exChunkStep (q := exC9) (t := exTask1) (v := exLazy) (m := 1) (tid := 3) (es := exMapped.1)
      (dm := exMapped.2) rfl (by decide) rfl
  have h6 : QStep exLS anyOps exC10 exC11 :=
    QStep.finish (q := exC10) (pre := []) (post := []) (t := exTask1) (v := exLazy) (m := 1) rfl
  have h7 : QStep exLS anyOps exC11 exC12 :=
    QStep.complete (q := exC11) (pre := []) (post := []) (t := exTask1) (v := exLazy) (r := some 1) rfl
      (exRoom (by decide))
  have h8 : QStep exLS anyOps exC12 exC13 :=
    QStep.receive (q := exC12) (p := 0) (x := ⟨exLazy, true, .wait 2 1 1, 1⟩) (w := 2) (id := 1) (ch := 1)
      (r := some 1) (rest := []) rfl rfl rfl
  exact .step (.step (.step (.step (.step (.step (.step (.step (.refl _) h1) h2) h3) h4) h5) h6) h7) h8

/-- The second job is new enough. -/
theorem exC_second : QExec exLS anyOps exC13 exC19 := by
  have h1 : QStep exLS anyOps exC13 exC14 :=
    QStep.lookup (q := exC13) (p := 0) (x := ⟨exLazy, true, .loop 2, 1⟩) (w := 2) rfl rfl
      (exRoom (by decide))
  have h2 : QStep exLS anyOps exC14 exC15 :=
    QStep.start (q := exC14) (t := exTask2) (rest := []) (v := exLazy) rfl rfl exIn (by decide) (by decide)
      (exRoom (by decide))
  have h3 : QStep exLS anyOps exC15 exC16 :=
    QStep.scan (q := exC15) (pre := []) (post := []) (t := exTask2) (v := exLazy) (m := 4) rfl
  have h4 : QStep exLS anyOps exC16 exC17 :=
    QStep.finish (q := exC16) (pre := []) (post := []) (t := exTask2) (v := exLazy) (m := 4) rfl
  have h5 : QStep exLS anyOps exC17 exC18 :=
    QStep.complete (q := exC17) (pre := []) (post := []) (t := exTask2) (v := exLazy) (r := some 4) rfl
      (exRoom (by decide))
  have h6 : QStep exLS anyOps exC18 exC19 :=
    QStep.receive (q := exC18) (p := 0) (x := ⟨exLazy, true, .wait 2 2 2, 2⟩) (w := 2) (id := 2) (ch := 2)
      (r := some 4) (rest := []) rfl rfl rfl
  exact .step (.step (.step (.step (.step (.step (.refl _) h1) h2) h3) h4) h5) h6

/-- **C75**: the bound of `C75_at_most_two_jobs` is reached. -/
theorem C75_two_jobs_needed :
    ∃ (s : Schema) (v : View) (q₀ q : QSys), DistinctViews s ∧ QStart v q₀ ∧ QExec s anyOps q₀ q ∧
      q.queries = [⟨v, true, .done, 2⟩] :=
  ⟨exLS, exLazy, exQ, exC19, exDistinct _, exQ_start _, (exC_begin.trans exC_first).trans exC_second, rfl⟩

/-! ## The hypotheses of the other theorems are met -/

theorem exTotal : ∀ v ∈ exLS.views, Total v := by
  intro v hv
  have : v = exLazy := by simpa [exWith] using hv
  subst this
  exact ⟨fun d => ⟨_, rfl⟩, fun _ _ h => (by cases h), by decide⟩

theorem exNoTrouble : NoTrouble exA6 where
  panic := by intro i h; simp [exA6, exE2] at h
  error := by intro i h; simp [exA6, exE2] at h
  work := by
    intro y hy v h
    simp [exA6] at hy
    subst hy
    cases h

/-- A query waits for a job that is running: it can finish. -/
example : ∃ q' y, Alone exLS exA6 q' ∧ q'.queries[0]? = some y ∧ y.phase = .done :=
  C75_query_can_finish_partial exLS (exDistinct _) exTotal anyOps exLazy exQ exA6 (exQ_start _)
    (exA_begin.trans exA_wait) exNoTrouble (by decide) (exRoom (by decide)) 0 _ rfl rfl (by decide)

/-- But if the job panics now, the query does not return while the process runs. -/
example (q' : QSys) (h : Same exLS anyOps (exA6.panicked exTask1 []) q') :
    ∃ y, q'.queries[0]? = some y ∧ y.phase ≠ .done ∧ y.phase ≠ .failed :=
  C75_violated_panic_blocks_view exLS (exDistinct _) anyOps exLazy exQ exA6 q' (exQ_start _)
    (exA_begin.trans exA_wait) [] [] exTask1 _ rfl (exRoom (by decide)) h 0 _ rfl rfl rfl
    (.inr ⟨2, 0, rfl⟩)

/-- And then the only worker is gone: a query of any view that comes later does not return. -/
example : ∃ q, QExec exLS anyOps exQ q ∧ q.work = [] ∧ q.workers = 0 ∧ q.evs ≠ [] ∧
    (∃ x, q.queries[0]? = some x ∧ x.block = true ∧
      ∃ w id ch, x.phase = .wait w id ch ∧ q.mgr.inbox ch = []) := by
  have h : QStep exLS anyOps exA6 (exA6.panicked exTask1 []) :=
    QStep.panic (q := exA6) (pre := []) (post := []) (t := exTask1) (j := ⟨exLazy, 2, none⟩) rfl
      (exRoom (by decide))
  refine ⟨_, .step (exA_begin.trans exA_wait) h, rfl, rfl, ?_, ⟨exLazy, true, .wait 2 1 0, 1⟩, rfl, rfl,
    2, 1, 0, rfl, rfl⟩
  simp [QSys.panicked]

end Bonsai.Store.Wait
