/-!
# The error of a job as those who wait for it see it (model)

`crates/bonsaidb-local/src/tasks/manager/jobs.rs`, `error.rs` of the local, server and client crates.
-/
set_option linter.unusedSimpArgs false
set_option linter.unusedVariables false

namespace Bonsai.JobErr

/-! ## Errors and their conversions -/

/-- `bonsaidb_core::Error` (lib.rs of the core crate): its kinds are a number here, except `Other`, which has only an
origin and a text. -/
inductive CoreErr where
  | kind (n : Nat)
  | other (origin text : String)
  deriving DecidableEq

/-- The local crate's error, local error.rs:17-79: core errors, core errors of view functions
(`view::Error::Core`), anything else, and the error of a job that is shared. -/
inductive LocalErr where
  | core (c : CoreErr)
  | view (c : CoreErr)
  | misc (text : String)
  | job (e : LocalErr)
  deriving DecidableEq

/-- The server's error, server error.rs:11-57. -/
inductive ServerErr where
  | core (c : CoreErr)
  | database (e : LocalErr)
  | misc (text : String)

/-- The client's error, client error.rs:8-40. -/
inductive ClientErr where
  | core (c : CoreErr)
  | misc (text : String)

/-- `Display` of a core error (derived by `thiserror`, core lib.rs:202); the text of a kind is
not modelled further. -/
def CoreErr.text : CoreErr → String
  | .kind n => toString n
  | .other o t => "error from " ++ o ++ ": " ++ t

/-- `Display` of a local error; the job's at local error.rs:67. -/
def LocalErr.text : LocalErr → String
  | .core c => "a core error occurred: " ++ c.text
  | .view c => "error from view: core error: " ++ c.text
  | .misc t => t
  | .job e => "an error from a job occurred: " ++ e.text

/-- `From<local::Error> for core::Error`, local error.rs:150-157. -/
def LocalErr.toCore : LocalErr → CoreErr
  | .view c | .core c => c
  | e => .other "bonsaidb-local" e.text

/-- `From<server::Error> for core::Error`, server error.rs:67-79. -/
def ServerErr.toCore : ServerErr → CoreErr
  | .core c | .database (.core c) => c
  | .database e => e.toCore
  | .misc t => .other "bonsaidb-server" t

/-- `From<client::Error> for core::Error`, client error.rs:82-89. -/
def ClientErr.toCore : ClientErr → CoreErr
  | .core c => c
  | .misc t => .other "bonsaidb-client" t

/-! ## Those who wait for a job -/

/-- Where a waiter is: nothing sent to it; a clone of the `Arc` in its channel; received, not yet converted; converted to
the error itself; converted to `Error::Job`, which holds the clone; `Error::Job` dropped; it does not wait any more. -/
inductive Slot where
  | waiting | queued | taken | original | shared | dropped | left
  deriving DecidableEq

/-- How many references to the error it has. -/
def Slot.refs : Slot → Nat
  | .queued | .taken | .shared => 1
  | _ => 0

/-- `job_completed` with `k` handles: how many were sent to, whether it still has its own reference
(`result`, jobs.rs:115), and the waiters. -/
structure St where
  next : Nat
  own : Bool
  slot : Nat → Slot

/-- The sum of `f` over `0..n`. -/
def sumUp (n : Nat) (f : Nat → Nat) : Nat := ((List.range n).map f).sum

/-- `Arc::strong_count`. -/
def St.count (st : St) (k : Nat) : Nat := (if st.own then 1 else 0) + sumUp k fun i => (st.slot i).refs

/-- A waiter changes. -/
def St.put (st : St) (i : Nat) (s : Slot) : St := { st with slot := fun j => if j = i then s else st.slot j }

/-- jobs.rs:114-115. -/
def St.init : St := ⟨0, true, fun _ => .waiting⟩

/-- One step of the job's thread or of a waiter. -/
inductive Step (k : Nat) : St → St → Prop where
  /-- jobs.rs:116-121. -/
  | send {st : St} : st.own = true → st.next < k → st.slot st.next = .waiting →
      Step k st { st.put st.next .queued with next := st.next + 1 }
  /-- jobs.rs:121: `drop(sender.send(..))` when the handle is gone. -/
  | sendLeft {st : St} : st.own = true → st.next < k → st.slot st.next = .left → Step k st { st with next := st.next + 1 }
  /-- jobs.rs:123: `result` is dropped. -/
  | finish {st : St} : st.own = true → st.next = k → Step k st { st with own := false }
  /-- handle.rs:31-33. -/
  | recv {st : St} {i : Nat} : i < k → st.slot i = .queued → Step k st (st.put i .taken)
  /-- `Arc::try_unwrap` succeeds, local error.rs:161-162. -/
  | unwrap {st : St} {i : Nat} : i < k → st.slot i = .taken → st.count k = 1 → Step k st (st.put i .original)
  /-- local error.rs:163. -/
  | wrap {st : St} {i : Nat} : i < k → st.slot i = .taken → st.count k ≠ 1 → Step k st (st.put i .shared)
  /-- The converted error is dropped, for example by `LocalErr.toCore`. -/
  | dropErr {st : St} {i : Nat} : i < k → st.slot i = .shared → Step k st (st.put i .dropped)
  /-- A handle is dropped without waiting. -/
  | leave {st : St} {i : Nat} : i < k → st.slot i = .waiting ∨ st.slot i = .queued → Step k st (st.put i .left)

inductive Steps (k : Nat) : St → St → Prop where
  | refl {st : St} : Steps k st st
  | step {a b d : St} : Steps k a b → Step k b d → Steps k a d

/-- What the waiter's call returns for a job that failed with `e`: none while it waits or if it left. -/
def seen (e : LocalErr) : Slot → Option CoreErr
  | .original => some e.toCore
  | .shared | .dropped => some (LocalErr.job e).toCore
  | _ => none

end Bonsai.JobErr
