/-!
# The workers of the server (model)

`crates/bonsaidb-server/src/server.rs:128-160`: `request_workers` tasks take the requests of all connections from one
channel.  A task that panics ends; nothing starts it again.

A request is of a client; whether its payload is a value or an error is up to the client: `Payload::value` is a
`Result` (`bonsaidb-core/src/networking.rs:27`).

Left out: the contents; what a handler does.  Whether a handler panics is up to the schedule.
-/
set_option linter.unusedVariables false

namespace Bonsai.Net

/-- A request as the workers see it, server.rs:133-134. -/
structure Req where
  client : Nat
  /-- A number that tells it apart from the other requests. -/
  uid : Nat
  /-- Is `Payload::value` an error? -/
  poison : Bool
  /-- Does `assume_session` succeed, server.rs:137?  It does for clients that have not logged in,
  `bonsaidb-local/src/storage.rs:1649-1655`. -/
  session : Bool
  deriving DecidableEq

/-- A worker. -/
inductive WState where
  /-- server.rs:132: waiting. -/
  | idle
  /-- Handling a request. -/
  | busy (r : Req)
  /-- Its task panicked. -/
  | dead
  deriving DecidableEq

/-- The workers, the channel, and the requests whose result was sent (server.rs:156). -/
structure Pool where
  workers : List WState
  queue : List Req
  answered : List Req

/-- What happens to a worker that takes a request, server.rs:133-153: with a session, `request.value.unwrap()`
(server.rs:150) panics if the value is an error; without, the result is an error. -/
def WState.take (r : Req) : WState := if r.session && r.poison then .dead else .busy r

/-- Kinds of steps. -/
inductive PLabel where
  /-- A client's request arrives. -/
  | request (r : Req)
  /-- A worker does something. -/
  | worker
  /-- A handler panics. -/
  | panic
  deriving DecidableEq

/-- One step. -/
inductive PStep : Pool → PLabel → Pool → Prop
  /-- server.rs:664-673. -/
  | submit {s r} : PStep s (.request r) { s with queue := s.queue ++ [r] }
  /-- server.rs:132-153. -/
  | take {s w₁ w₂ r q} (hw : s.workers = w₁ ++ .idle :: w₂) (hq : s.queue = r :: q) :
      PStep s .worker { s with workers := w₁ ++ .take r :: w₂, queue := q }
  /-- server.rs:156. -/
  | done {s w₁ w₂ r} (hw : s.workers = w₁ ++ .busy r :: w₂) :
      PStep s .worker { s with workers := w₁ ++ .idle :: w₂, answered := s.answered ++ [r] }
  /-- A handler panics. -/
  | panic {s w₁ w₂ r} (hw : s.workers = w₁ ++ .busy r :: w₂) :
      PStep s .panic { s with workers := w₁ ++ .dead :: w₂ }

/-- Executions whose labels satisfy `P`. -/
inductive PExec (P : PLabel → Prop) : Pool → Pool → Prop
  | refl (s) : PExec P s s
  | step {s s₁ s₂ l} (h : PExec P s s₁) (hs : PStep s₁ l s₂) (hp : P l) : PExec P s s₂

/-- A server that was just opened, server.rs:128-131. -/
def Pool.new (workers : Nat) : Pool := ⟨List.replicate workers .idle, [], []⟩

/-! ## Specification -/

/-- No handler panics and no request is one that makes a worker panic. -/
def Benign : PLabel → Prop
  | .request r => (r.session && r.poison) = false
  | .worker => True
  | .panic => False

end Bonsai.Net
