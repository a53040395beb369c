/-!
# Asynchronous calls (model)

`crates/bonsaidb-local/src/async.rs`: `AsyncStorage` and `AsyncDatabase` hand each call to a blocking thread of a Tokio
runtime, `self.runtime.spawn_blocking(move || task_self.…).await`, and a few are done on the spot (`publish_bytes`,
`create_subscriber`, `last_transaction_id`, async.rs:611-617, 662-680).

The blocking storage is an object with states `S`; `exec s q` is what a request `q` (the session of the handle and the
operation with its arguments) does to it in one step: that the blocking calls are such steps is what the other
properties are about (C20, C26, C37).  `none` as a result says that the call panicked.  Tokio is modelled by its
documentation: a blocking task that has not begun when the runtime is shut down never runs, and one that has begun runs
to its end even if the future that waits for it is dropped.
-/
set_option linter.unusedVariables false

namespace Bonsai.Asyn

/-- What a call returns: the result of the blocking call, or `Error::TaskJoin`, error.rs:57-60. -/
inductive AAns (R : Type) where
  | ok (r : R)
  | join
  deriving DecidableEq

/-- How far a call is. -/
inductive AStage (R : Type) where
  /-- Handed to `spawn_blocking`, no thread has it. -/
  | queued
  /-- A thread runs it; it has not taken effect. -/
  | running
  /-- It took effect, with a result or a panic. -/
  | done (r : Option R)
  /-- The runtime was shut down before a thread took it. -/
  | cancelled
  deriving DecidableEq

/-- A call: the request, the runtime of the handle, how far it is, whether the future is still there, and whether it
was answered. -/
structure ACall (Q R : Type) where
  req : Q
  runtime : Nat
  stage : AStage R
  dropped : Bool
  answered : Bool
  deriving DecidableEq

/-- What is seen: calls are known by their number. -/
inductive AEv (Q R : Type) where
  /-- The call was made (the future polled for the first time). -/
  | began (i : Nat) (q : Q)
  /-- It took effect on the storage. -/
  | effect (i : Nat) (q : Q)
  /-- It returned. -/
  | returned (i : Nat) (a : AAns R)
  /-- The caller gave up: a timeout, a `select!`, an aborted task. -/
  | dropped (i : Nat)
  deriving DecidableEq

/-- The storage, the calls, which runtimes were shut down, and what was seen. -/
structure AWorld (S Q R : Type) where
  state : S
  calls : List (ACall Q R)
  down : Nat → Bool
  log : List (AEv Q R)

variable {S Q R : Type}

/-- What the caller gets when the blocking task has ended: `.await.map_err(Error::from)?`, async.rs throughout. -/
def AAns.of : Option R → AAns R
  | some r => .ok r
  | none => .join

/-- No thread has taken the call. -/
def AStage.isQueued : AStage R → Bool
  | .queued => true
  | _ => false

/-- A runtime is shut down: the calls that no thread has taken never run. -/
def ACall.stop (rt : Nat) (c : ACall Q R) : ACall Q R :=
  if c.runtime = rt ∧ c.stage.isQueued = true then { c with stage := .cancelled } else c

/-- The steps. -/
inductive AsStep (exec : S → Q → S × Option R) : AWorld S Q R → AWorld S Q R → Prop
  /-- `spawn_blocking` on a handle of runtime `rt`; on one that is shut down the task is cancelled at once. -/
  | spawn {w : AWorld S Q R} (q : Q) (rt : Nat) :
      AsStep exec w
        { w with
          calls := w.calls ++ [⟨q, rt, if w.down rt then .cancelled else .queued, false, false⟩]
          log := w.log ++ [.began w.calls.length q] }
  /-- A call that is done on the spot: async.rs:611-617, 662-680. -/
  | direct {w : AWorld S Q R} {r : R} (q : Q) (rt : Nat) : (exec w.state q).2 = some r →
      AsStep exec w
        { w with
          state := (exec w.state q).1
          calls := w.calls ++ [⟨q, rt, .done (some r), false, true⟩]
          log := w.log ++ [.began w.calls.length q, .effect w.calls.length q, .returned w.calls.length (.ok r)] }
  /-- A thread takes the call. -/
  | take {w : AWorld S Q R} {i : Nat} {c : ACall Q R} : w.calls[i]? = some c → c.stage = .queued →
      AsStep exec w { w with calls := w.calls.set i { c with stage := .running } }
  /-- The blocking call takes effect. -/
  | effect {w : AWorld S Q R} {i : Nat} {c : ACall Q R} : w.calls[i]? = some c → c.stage = .running →
      AsStep exec w
        { w with
          state := (exec w.state c.req).1
          calls := w.calls.set i { c with stage := .done (exec w.state c.req).2 }
          log := w.log ++ [.effect i c.req] }
  /-- The future is polled and is ready. -/
  | answer {w : AWorld S Q R} {i : Nat} {c : ACall Q R} {r : Option R} : w.calls[i]? = some c → c.stage = .done r →
      c.dropped = false → c.answered = false →
      AsStep exec w
        { w with calls := w.calls.set i { c with answered := true }, log := w.log ++ [.returned i (AAns.of r)] }
  /-- The future is polled and the task was cancelled. -/
  | refuse {w : AWorld S Q R} {i : Nat} {c : ACall Q R} : w.calls[i]? = some c → c.stage = .cancelled →
      c.dropped = false → c.answered = false →
      AsStep exec w
        { w with calls := w.calls.set i { c with answered := true }, log := w.log ++ [.returned i .join] }
  /-- The future is dropped: the task goes on. -/
  | drop {w : AWorld S Q R} {i : Nat} {c : ACall Q R} : w.calls[i]? = some c → c.answered = false →
      AsStep exec w { w with calls := w.calls.set i { c with dropped := true }, log := w.log ++ [.dropped i] }
  /-- A runtime is shut down. -/
  | shutdown {w : AWorld S Q R} (rt : Nat) :
      AsStep exec w { w with down := fun r => r == rt || w.down r, calls := w.calls.map (ACall.stop rt) }

/-- Any number of steps. -/
inductive AsSteps (exec : S → Q → S × Option R) : AWorld S Q R → AWorld S Q R → Prop
  | refl {w : AWorld S Q R} : AsSteps exec w w
  | step {w w' w'' : AWorld S Q R} : AsSteps exec w w' → AsStep exec w' w'' → AsSteps exec w w''

/-- Before any call. -/
def AWorld.fresh (s : S) : AWorld S Q R := ⟨s, [], fun _ => false, []⟩

/-! ## Handles -/

/-- Ways to get a handle from a handle. -/
inductive Derive where
  /-- `clone`, `with_effective_permissions`, `assume_session`, `storage()`: async.rs:157-164, 217-222, 295-302, 588-593. -/
  | share
  /-- `database`, `authenticate`, `assume_identity`: `into_async` inside the blocking task, async.rs:386-401, 463-494. -/
  | inTask
  /-- `admin`: `into_async` after the `await`, async.rs:355-363. -/
  | afterAwait
  deriving DecidableEq

/-- The runtime of the handle one gets; `caller` is the runtime the calling task runs on, if any.  `none`: a panic in
`Handle::current()`, storage.rs:556-558, database.rs:918-920. -/
def Derive.runtime (own : Nat) (caller : Option Nat) : Derive → Option Nat
  | .share => some own
  | .inTask => some own
  | .afterAwait => caller

end Bonsai.Asyn
