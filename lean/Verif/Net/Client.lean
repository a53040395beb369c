/-!
# The network client: matching responses to requests (model)

`crates/bonsaidb-client/src/client.rs`, `client/tungstenite_worker.rs` (WebSockets) and `client/quic_worker.rs`
(BonsaiDb's own protocol).

A request is known by its number: the how-many-th request of this client it is.  What travels is the number
modulo 2^32.  The response of the server to request `r` is written `r`: which request a response was made for is
not visible to the client, only the id it carries.

Left out: responses without an id (messages of subscriptions), timeouts of callers (a caller that gave up
ignores its answer), clients that are dropped.
-/
set_option linter.unusedVariables false

namespace Bonsai.Net

/-- `self.data.request_id.fetch_add(1)` of an `AtomicU32`, client.rs:493: the id of the `n`th request. -/
def wireId (n : Nat) : Nat := n % 2 ^ 32

/-- What the caller of a request receives from its channel, client.rs:487-506. -/
inductive Answer where
  /-- The response the server made for request `r`. -/
  | response (r : Nat)
  /-- An error. -/
  | error
  /-- The sender of the channel was dropped: `RecvError`, an error for the caller. -/
  | dropped
  deriving DecidableEq

/-- Is it an error for the caller? -/
def Answer.isError : Answer → Bool
  | .response _ => false
  | _ => true

/-- The two transports. -/
inductive Transport where
  | websocket
  | quic
  deriving DecidableEq

/-- A connection: the map of outstanding requests (client.rs:854-856, entries of id and request), what the
server received and has not answered, the responses on their way, the request that opened the connection, and
whether the reader has ended (without an error on a WebSocket, with or without one on QUIC). -/
structure Conn where
  outstanding : List (Nat × Nat)
  received : List Nat
  inflight : List Nat
  first : Nat
  ended : Bool

/-- Where the worker of the client is. -/
inductive Worker where
  /-- Waiting for a request, with an error to be replayed or not: tungstenite_worker.rs:30-38,
  quic_worker.rs:37-42. -/
  | idle (pendingError : Bool)
  /-- Connecting because of a request. -/
  | connecting (u : Nat)
  /-- QUIC, quic_worker.rs:83-88: connected and the reader runs, the first request is not sent. -/
  | opened (u : Nat) (c : Conn)
  /-- QUIC, quic_worker.rs:90-92: the first request was sent, but is not yet in the map. -/
  | sent (u : Nat) (c : Conn)
  /-- Both the sender and the reader run. -/
  | running (c : Conn)

/-- A client: the number of requests so far, requests that have an id but are not yet in the channel, the channel,
the worker, and the answers given. -/
structure Client where
  next : Nat
  submitting : List Nat
  queue : List Nat
  worker : Worker
  answers : List (Nat × Answer)

/-- A new connection. -/
def Conn.new (u : Nat) : Conn := ⟨[], [], [], u, false⟩

/-- Sending a request and inserting it into the map, under the lock of the map: tungstenite_worker.rs:75-88 and
107-118, quic_worker.rs:124-130.  An older request with the same id is replaced, its channel dropped. -/
def Conn.insert (c : Conn) (u : Nat) : Conn :=
  { c with outstanding := (wireId u, u) :: c.outstanding.eraseP (·.1 == wireId u) }

/-- The answers an insertion causes. -/
def Conn.replaced (c : Conn) (u : Nat) : List (Nat × Answer) :=
  match c.outstanding.find? (·.1 == wireId u) with
  | none => []
  | some (_, v) => [(v, .dropped)]

/-- The server receives a request. -/
def Conn.send (c : Conn) (u : Nat) : Conn := { c with received := u :: c.received }

/-- `process_response_payload`, client.rs:863-881, of the response to `r`: the entry with its id is removed. -/
def Conn.deliver (c : Conn) (r : Nat) : Conn :=
  { c with inflight := c.inflight.erase r, outstanding := c.outstanding.eraseP (·.1 == wireId r) }

/-- The answers it causes. -/
def Conn.delivered (c : Conn) (r : Nat) : List (Nat × Answer) :=
  match c.outstanding.find? (·.1 == wireId r) with
  | none => []
  | some (_, v) => [(v, .response r)]

/-- `disconnect_pending_requests`, client.rs:976-988: the answers. -/
def Conn.disconnected (c : Conn) : List (Nat × Answer) := c.outstanding.map fun p => (p.2, .error)

/-- The worker afterwards: the error is kept when nobody received it (`pending_error.take()`). -/
def Conn.afterDisconnect (c : Conn) : Worker := .idle c.outstanding.isEmpty

/-- What a step is, for statements about schedules. -/
inductive Label where
  /-- A caller makes a request. -/
  | request
  /-- The connection is lost. -/
  | lost
  | other
  deriving DecidableEq

/-- The connection of a worker whose reader runs. -/
def Worker.conn : Worker → Option Conn
  | .opened _ c => some c
  | .sent _ c => some c
  | .running c => some c
  | _ => none

/-- The same worker with another state of the connection. -/
def Worker.setConn : Worker → Conn → Worker
  | .opened u _, c => .opened u c
  | .sent u _, c => .sent u c
  | .running _, c => .running c
  | w, _ => w

/-- One step. -/
inductive Step (t : Transport) : Client → Label → Client → Prop
  /-- `send_request_without_confirmation`, client.rs:492-493: a caller gets an id. -/
  | submit {s} : Step t s .request { s with next := s.next + 1, submitting := s.next :: s.submitting }
  /-- client.rs:494-502: it puts the request into the channel. -/
  | enqueue {s u} (h : u ∈ s.submitting) :
      Step t s .other { s with submitting := s.submitting.erase u, queue := s.queue ++ [u] }
  /-- tungstenite_worker.rs:34-37, quic_worker.rs:39-42: the next request gets the error that was left. -/
  | replay {s u q} (hq : s.queue = u :: q) (hw : s.worker = .idle true) :
      Step t s .other { s with queue := q, worker := .idle false, answers := (u, .error) :: s.answers }
  /-- The worker takes a request and connects. -/
  | take {s u q} (hq : s.queue = u :: q) (hw : s.worker = .idle false) :
      Step t s .other { s with queue := q, worker := .connecting u }
  /-- Connecting fails or takes too long, or (WebSocket) the request cannot be sent:
  tungstenite_worker.rs:59-66 and 76-82, quic_worker.rs:79-80. -/
  | connectFails {s u} (hw : s.worker = .connecting u) :
      Step t s .other { s with worker := .idle false, answers := (u, .error) :: s.answers }
  /-- WebSocket, tungstenite_worker.rs:71-88: the first request is sent and inserted; the reader starts after
  that. -/
  | connectWs {s u} (ht : t = .websocket) (hw : s.worker = .connecting u) :
      Step t s .other { s with worker := .running (((Conn.new u).send u).insert u) }
  /-- QUIC, quic_worker.rs:83-88. -/
  | connectQuic {s u} (ht : t = .quic) (hw : s.worker = .connecting u) :
      Step t s .other { s with worker := .opened u (.new u) }
  /-- QUIC, quic_worker.rs:90: the first request is sent ... -/
  | sendFirst {s u c} (hw : s.worker = .opened u c) : Step t s .other { s with worker := .sent u (c.send u) }
  /-- ... or not, quic_worker.rs:91 and 55-56. -/
  | sendFirstFails {s u c} (hw : s.worker = .opened u c) :
      Step t s .lost { s with worker := .idle false, answers := (u, .error) :: s.answers }
  /-- QUIC, quic_worker.rs:94-103: and inserted, without having held the lock while sending. -/
  | insertFirst {s u c} (hw : s.worker = .sent u c) :
      Step t s .other { s with worker := .running (c.insert u), answers := c.replaced u ++ s.answers }
  /-- The sender takes a request and sends it.  On a WebSocket that was closed this fails. -/
  | send {s u q c} (hq : s.queue = u :: q) (hw : s.worker = .running c) (hopen : t = .quic ∨ c.ended = false) :
      Step t s .other
        { s with queue := q, worker := .running ((c.send u).insert u), answers := c.replaced u ++ s.answers }
  /-- Sending fails, tungstenite_worker.rs:110-112 and quic_worker.rs:126: the request is dropped with the
  future, all outstanding requests get an error. -/
  | sendFails {s u q c} (hq : s.queue = u :: q) (hw : s.worker = .running c) :
      Step t s .lost { s with queue := q, worker := c.afterDisconnect,
                              answers := (u, .dropped) :: c.disconnected ++ s.answers }
  /-- The server answers a request it received on this connection. -/
  | respond {s c r} (hw : s.worker.conn = some c) (hr : r ∈ c.received) :
      Step t s .other { s with worker := (s.worker.setConn
        { c with received := c.received.erase r, inflight := r :: c.inflight }) }
  /-- The reader receives a response. -/
  | deliver {s c r} (hw : s.worker.conn = some c) (hopen : c.ended = false) (hr : r ∈ c.inflight) :
      Step t s .other { s with worker := (s.worker.setConn (c.deliver r)), answers := c.delivered r ++ s.answers }
  /-- The reader ends: the stream ended.  On a WebSocket (tungstenite_worker.rs:125-140) it returns `Ok`, so that
  `try_join!` goes on waiting for the sender.  On QUIC (quic_worker.rs:138-150) it returns an error, noticed by
  `try_join!`. -/
  | readerEnds {s c} (hw : s.worker.conn = some c) :
      Step t s .other { s with worker := (s.worker.setConn { c with ended := true }) }
  /-- The reader's error ends both: a broken stream (`message?`), or QUIC's end.  Outstanding requests get an
  error. -/
  | readerFails {s c} (hw : s.worker = .running c) (h : t = .quic ∨ c.ended = false) :
      Step t s .lost { s with worker := c.afterDisconnect, answers := c.disconnected ++ s.answers }
  /-- The same while the sender was sending a request: it is dropped with the future. -/
  | interrupted {s u q c} (hq : s.queue = u :: q) (hw : s.worker = .running c) (h : t = .quic ∨ c.ended = false) :
      Step t s .lost { s with queue := q, worker := c.afterDisconnect,
                              answers := (u, .dropped) :: c.disconnected ++ s.answers }

/-- Executions in which every label satisfies `P`. -/
inductive Exec (t : Transport) (P : Label → Prop) : Client → Client → Prop
  | refl (s) : Exec t P s s
  | step {s s₁ s₂ l} (h : Exec t P s s₁) (hs : Step t s₁ l s₂) (hp : P l) : Exec t P s s₂

/-- A new client. -/
def Client.new : Client := ⟨0, [], [], .idle false, []⟩

/-- Any schedule. -/
def AnyLabel (_ : Label) : Prop := True

/-- A state a client can be in. -/
def Reachable (t : Transport) (s : Client) : Prop := Exec t AnyLabel .new s

/-! ## Specification -/

/-- The request was answered. -/
def Answered (s : Client) (u : Nat) : Prop := ∃ a, (u, a) ∈ s.answers

/-- The request is waiting for a response on the current connection. -/
def Outstanding (s : Client) (u : Nat) : Prop :=
  ∃ c, s.worker.conn = some c ∧ (u ∈ c.outstanding.map (·.2) ∨ s.worker = .sent u c)

end Bonsai.Net
