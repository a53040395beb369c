import Verif.Net.Client

/-!
# The server's side of a connection (model)

`crates/bonsaidb-server/src/server.rs:584-692` (`handle_client_requests`, `handle_request_through_worker`) and
694-761 (`handle_stream`), `server/websockets.rs:99-198`.

One connection: the loop that accepts requests, the requests that were accepted, the channel of responses and the
task that writes them.  The requests of a connection are numbered in the order they are accepted.  The workers that
handle requests are those of `Verif.Net.Workers`; here a request may be taken at any time.

`Notify` of tokio has one waiter here, the loop: `notify_one` stores a permit that the waiter consumes.

Left out: the ids of requests and responses (see `Verif.Net.Client`), sessions, the contents.
-/
set_option linter.unusedVariables false

namespace Bonsai.Net

/-- Where an accepted request is. -/
inductive Phase where
  /-- In the channel of the workers, server.rs:664-673. -/
  | queued
  /-- A worker handles it, server.rs:132-155. -/
  | running
  /-- `result_sender.send`, server.rs:156: its result is there. -/
  | resulted
  /-- server.rs:632-637: its response is in the channel of responses. -/
  | responded
  /-- server.rs:639: and its slot is free. -/
  | decremented
  /-- The worker panicked: `result_receiver.await?` fails, server.rs:675, and the callback is dropped. -/
  | lost
  deriving DecidableEq

/-- Where the loop is. -/
inductive Loop where
  /-- server.rs:594. -/
  | load
  /-- server.rs:597. -/
  | wait
  /-- server.rs:598-605, with the number that was loaded. -/
  | cas (n : Nat)
  /-- server.rs:607-622. -/
  | recv
  /-- It returned. -/
  | stopped
  deriving DecidableEq

/-- A connection of the server. -/
structure Srv where
  limit : Nat
  /-- `requests_in_queue`, server.rs:592. -/
  counter : Nat
  loop : Loop
  /-- `notify`, server.rs:591. -/
  permit : Bool
  /-- The requests accepted so far. -/
  next : Nat
  tasks : List (Nat × Phase)
  /-- The channel of responses. -/
  outbox : List Nat
  /-- Responses written to the connection. -/
  written : List Nat
  /-- Does the writer run? -/
  writer : Bool
  /-- `shutdown(Some(_))` was called, server.rs:767-769. -/
  graceful : Bool

/-- The loop's own steps and the writer's, the steps of tasks, and what comes from outside. -/
inductive SLabel where
  /-- A step of the loop, of the writer or of a task that has its result. -/
  | internal
  /-- A request arrives, or the connection or the server ends. -/
  | external
  /-- A handler does something. -/
  | handler
  deriving DecidableEq

/-- One step. -/
inductive SStep (t : Transport) : Srv → SLabel → Srv → Prop
  /-- server.rs:594-597. -/
  | loadFull {s} (hl : s.loop = .load) (h : s.counter = s.limit) : SStep t s .internal { s with loop := .wait }
  | loadFree {s} (hl : s.loop = .load) (h : s.counter ≠ s.limit) :
      SStep t s .internal { s with loop := .cas s.counter }
  /-- server.rs:597: `notified().await`. -/
  | notified {s} (hl : s.loop = .wait) (h : s.permit = true) :
      SStep t s .internal { s with loop := .load, permit := false }
  /-- server.rs:598-605. -/
  | casOk {s n} (hl : s.loop = .cas n) (h : s.counter = n) :
      SStep t s .internal { s with loop := .recv, counter := s.counter + 1 }
  | casFails {s n} (hl : s.loop = .cas n) (h : s.counter ≠ n) : SStep t s .internal { s with loop := .load }
  /-- server.rs:609-612 and 629-641: a request arrives and is put into the channel of the workers. -/
  | receive {s} (hl : s.loop = .recv) :
      SStep t s .external { s with loop := .load, next := s.next + 1, tasks := (s.next, .queued) :: s.tasks }
  /-- server.rs:614-620: the connection ended, or the server is shutting down. -/
  | stop {s} (hl : s.loop = .recv) : SStep t s .external { s with loop := .stopped }
  /-- server.rs:132: a worker takes it. -/
  | taken {s l₁ l₂ u} (h : s.tasks = l₁ ++ (u, .queued) :: l₂) :
      SStep t s .handler { s with tasks := l₁ ++ (u, .running) :: l₂ }
  /-- server.rs:156. -/
  | result {s l₁ l₂ u} (h : s.tasks = l₁ ++ (u, .running) :: l₂) :
      SStep t s .handler { s with tasks := l₁ ++ (u, .resulted) :: l₂ }
  /-- The handler panics. -/
  | panic {s l₁ l₂ u} (h : s.tasks = l₁ ++ (u, .running) :: l₂) :
      SStep t s .handler { s with tasks := l₁ ++ (u, .lost) :: l₂ }
  /-- server.rs:632-637: the response, which is dropped when nobody writes any more. -/
  | respond {s l₁ l₂ u} (h : s.tasks = l₁ ++ (u, .resulted) :: l₂) :
      SStep t s .internal { s with tasks := l₁ ++ (u, .responded) :: l₂,
                                   outbox := if s.writer then s.outbox ++ [u] else s.outbox }
  /-- server.rs:639. -/
  | decrement {s l₁ l₂ u} (h : s.tasks = l₁ ++ (u, .responded) :: l₂) :
      SStep t s .internal { s with tasks := l₁ ++ (u, .decremented) :: l₂, counter := s.counter - 1 }
  /-- server.rs:641; the task ends. -/
  | notify {s l₁ l₂ u} (h : s.tasks = l₁ ++ (u, .decremented) :: l₂) :
      SStep t s .internal { s with tasks := l₁ ++ l₂, permit := true }
  /-- server.rs:716-718; websockets.rs:139-160. -/
  | write {s u o} (hw : s.writer = true) (h : s.outbox = u :: o) :
      SStep t s .internal { s with outbox := o, written := s.written ++ [u] }
  /-- `shutdown(Some(_))`. -/
  | shutdown {s} : SStep t s .external { s with graceful := true }
  /-- server.rs:709-713: on QUIC the writer ends when the server shuts down gracefully; its channel with it. -/
  | writerStops {s} (ht : t = .quic) (hg : s.graceful = true) (hw : s.writer = true) :
      SStep t s .internal { s with writer := false, outbox := [] }

/-- Executions whose labels satisfy `P`. -/
inductive SExec (t : Transport) (P : SLabel → Prop) : Srv → Srv → Prop
  | refl (s) : SExec t P s s
  | step {s s₁ s₂ l} (h : SExec t P s s₁) (hs : SStep t s₁ l s₂) (hp : P l) : SExec t P s s₂

/-- A new connection, server.rs:591-592. -/
def Srv.new (limit : Nat) : Srv := ⟨limit, 0, .load, false, 0, [], [], [], true, false⟩

/-- A state of a connection of a server with this limit. -/
def SReachable (t : Transport) (limit : Nat) (s : Srv) : Prop := SExec t (fun _ => True) (.new limit) s

/-! ## Specification -/

/-- How many accepted requests have not yet got their response. -/
def inProcess (s : Srv) : Nat :=
  s.tasks.countP fun p => decide (p.2 = .queued) || decide (p.2 = .running) || decide (p.2 = .resulted) ||
    decide (p.2 = .lost)

/-- How many accepted requests will never get one because their handler panicked. -/
def panicked (s : Srv) : Nat := s.tasks.countP fun p => decide (p.2 = .lost)

end Bonsai.Net
