/-!
# The client in a browser (model)

`crates/bonsaidb-client/src/client/wasm_websocket_worker.rs`: no loop, but callbacks of a WebSocket and tasks on the
browser's event loop.  A request is known by its number (matching responses to requests by id is C54's).  A connection
is known by its number.  Channels are modelled as the set of requests in them: any of them can be taken, which includes
the order of the code.
-/
set_option linter.unusedSimpArgs false
set_option linter.unusedVariables false

namespace Bonsai.Browser

/-- What is sent to the responder of a request. -/
inductive Ans where
  | response | error
  deriving DecidableEq

/-- Where the responder of a request is: not made yet; in the client's channel; kept as the request that opens
connection `c` (wasm_websocket_worker.rs:103); in the channel of connection `c` (95-101); in the map of requests that were
sent on `c`, `reached` if the socket was open then; used. -/
inductive Loc where
  | new | queue
  | initial (c : Nat)
  | chan (c : Nat)
  | out (c : Nat) (reached : Bool)
  | answered (a : Ans)
  deriving DecidableEq

/-- A WebSocket; `closed` once its close event was handled. -/
inductive Sock where
  | connecting | opened | closing | closed
  deriving DecidableEq

/-- The task that the open event starts, wasm_websocket_worker.rs:178-193: not started, about to take the first request,
in its loop, ended. -/
inductive Sender where
  | none | first | loop | ended
  deriving DecidableEq

/-- A connection: its socket, its sender, whether `forward_request_with_shutdown` runs
(wasm_websocket_worker.rs:148-170) and was told to stop. -/
structure Conn where
  sock : Sock
  sender : Sender
  fwd : Bool
  shut : Bool
  deriving DecidableEq

/-- `create_websocket` waits for a request, with an error to be given to it or not
(wasm_websocket_worker.rs:57-67); or a connection exists. -/
inductive Worker where
  | idle (pending : Bool)
  | busy (c : Nat)
  deriving DecidableEq

structure St where
  /-- How many requests were made. -/
  next : Nat
  loc : Nat → Loc
  worker : Worker
  /-- How many connections were made. -/
  n : Nat
  conn : Nat → Conn

/-- client.rs:448-478. -/
def St.init : St := ⟨0, fun _ => .new, .idle false, 0, fun _ => ⟨.closed, .none, false, false⟩⟩

/-- A request moves. -/
def St.move (st : St) (r : Nat) (l : Loc) : St := { st with loc := fun j => if j = r then l else st.loc j }

/-- A connection changes. -/
def St.setConn (st : St) (c : Nat) (x : Conn) : St := { st with conn := fun j => if j = c then x else st.conn j }

/-- The request that opens connection `c` is answered with an error if it is still there: `take_initial_request`,
wasm_websocket_worker.rs:307-310. -/
def St.failInitial (st : St) (c : Nat) : St :=
  { st with loc := fun j => if st.loc j = .initial c then .answered .error else st.loc j }

/-- `disconnect_pending_requests`, client.rs:976-988. -/
def St.failOut (st : St) (c : Nat) : St :=
  { st with loc := fun j => if st.loc j = .out c true ∨ st.loc j = .out c false then .answered .error else st.loc j }

/-- Nobody receives the error of a connection that closes: wasm_websocket_worker.rs:330-345. -/
def St.nobody (st : St) (c : Nat) : Prop :=
  ∀ r, st.loc r ≠ .initial c ∧ st.loc r ≠ .out c true ∧ st.loc r ≠ .out c false

/-- One step of a caller, a task or an event. -/
inductive Step : St → St → Prop where
  /-- `send_request_without_confirmation`, client.rs:487-506. -/
  | call {st : St} : Step st { st.move st.next .queue with next := st.next + 1 }
  /-- wasm_websocket_worker.rs:61-67. -/
  | replay {st : St} {r : Nat} : st.worker = .idle true → st.loc r = .queue →
      Step st { st.move r (.answered .error) with worker := .idle false }
  /-- wasm_websocket_worker.rs:57-60, 69-145. -/
  | start {st : St} {r : Nat} : st.worker = .idle false → st.loc r = .queue →
      Step st { (st.move r (.initial st.n)).setConn st.n ⟨.connecting, .none, true, false⟩ with
        worker := .busy st.n, n := st.n + 1 }
  /-- wasm_websocket_worker.rs:73-92: the socket cannot be made. -/
  | startFails {st : St} {r : Nat} : st.worker = .idle false → st.loc r = .queue → Step st (st.move r (.answered .error))
  /-- wasm_websocket_worker.rs:157-162; also after the shutdown was sent: `select!` takes any that is ready. -/
  | forward {st : St} {c r : Nat} : (st.conn c).fwd = true → (st.conn c).sender ≠ .ended → st.loc r = .queue →
      Step st (st.move r (.chan c))
  /-- wasm_websocket_worker.rs:162-164: the receiver was dropped with the sender's task (179-192); the request that is
  dropped with the error drops its responder, which the caller gets as an error (client.rs:531, 539). -/
  | forwardDrops {st : St} {c r : Nat} : (st.conn c).fwd = true → (st.conn c).sender = .ended → st.loc r = .queue →
      Step st ((st.move r (.answered .error)).setConn c { st.conn c with fwd := false })
  /-- The channel is dropped when both of its ends are, with what is in it (as `forwardDrops`):
  wasm_websocket_worker.rs:152, 173. -/
  | dropped {st : St} {c r : Nat} : (st.conn c).fwd = false → (st.conn c).sender = .ended → st.loc r = .chan c →
      Step st (st.move r (.answered .error))
  /-- wasm_websocket_worker.rs:159, 165-167. -/
  | forwardEnds {st : St} {c : Nat} : (st.conn c).fwd = true → (st.conn c).shut = true →
      Step st (st.setConn c { st.conn c with fwd := false })
  /-- The open event: wasm_websocket_worker.rs:178-179. -/
  | opened {st : St} {c : Nat} : (st.conn c).sock = .connecting →
      Step st (st.setConn c { st.conn c with sock := .opened, sender := .first })
  /-- wasm_websocket_worker.rs:180-181, 212-219.  A socket that is not open any more discards what is sent; the only error
  of `send` is for a socket that is connecting, which it is not after the open event. -/
  | first {st : St} {c r : Nat} : (st.conn c).sender = .first → st.loc r = .initial c →
      Step st ((st.move r (.out c ((st.conn c).sock == .opened))).setConn c { st.conn c with sender := .loop })
  /-- wasm_websocket_worker.rs:180, 188-192: the first request was already answered. -/
  | firstGone {st : St} {c : Nat} : (st.conn c).sender = .first → (∀ r, st.loc r ≠ .initial c) →
      Step st (st.setConn c { st.conn c with
        sender := .ended, sock := if (st.conn c).sock = .opened then .closing else (st.conn c).sock })
  /-- wasm_websocket_worker.rs:182-183, 212-219. -/
  | send {st : St} {c r : Nat} : (st.conn c).sender = .loop → st.loc r = .chan c →
      Step st (st.move r (.out c ((st.conn c).sock == .opened)))
  /-- wasm_websocket_worker.rs:182, 190-192. -/
  | sendEnds {st : St} {c : Nat} : (st.conn c).sender = .loop → (st.conn c).fwd = false → (∀ r, st.loc r ≠ .chan c) →
      Step st (st.setConn c { st.conn c with
        sender := .ended, sock := if (st.conn c).sock = .opened then .closing else (st.conn c).sock })
  /-- A message event: wasm_websocket_worker.rs:231-257.  A response that arrives has the id of a request that was sent. -/
  | respond {st : St} {c r : Nat} : (st.conn c).sock = .opened → st.loc r = .out c true →
      Step st (st.move r (.answered .response))
  /-- An error event, or the connect timeout while the first request is there: wasm_websocket_worker.rs:259-278,
  280-305. -/
  | fails {st : St} {c : Nat} : (st.conn c).sock = .connecting ∨ (st.conn c).sock = .opened →
      Step st ((st.failInitial c).setConn c { st.conn c with shut := true, sock := .closing })
  /-- The close event: wasm_websocket_worker.rs:326-358. -/
  | close {st : St} {c : Nat} {pending : Bool} : c < st.n → (st.conn c).sock ≠ .closed →
      (pending = true ↔ st.nobody c) →
      Step st { ((st.failInitial c).failOut c).setConn c { st.conn c with shut := true, sock := .closed } with
        worker := .idle pending }

inductive Steps : St → St → Prop where
  | refl {st : St} : Steps st st
  | step {a b d : St} : Steps a b → Step b d → Steps a d

/-- What the caller gets, client.rs:508-541: the answer, a timeout, or it still waits.  `window` tells whether there is a
`window`: without it the sender of the timeout is dropped at once (512-531), which ends the `select!` (532-535) before
anything was sent. -/
inductive Result where
  | answer (a : Ans)
  | timeout
  | waits
  deriving DecidableEq

def result (window elapsed : Bool) : Loc → Result
  | .answered a => if window then .answer a else .timeout
  | _ => if window then (if elapsed then .timeout else .waits) else .timeout

end Bonsai.Browser
