/-!
# How a client and a server come to speak (model)

`crates/bonsaidb-client/src/client.rs:344-371`, `error.rs:117-134`, the workers' connecting
(`quic_worker.rs:31-33, 155-191`, `tungstenite_worker.rs:39-66`, `wasm_websocket_worker.rs:70-93`); the server's
`server/websockets.rs:24-90, 239-268`, `server/tcp.rs:10-170, 280-336`, `server.rs:381-386`.

Not modelled: TLS and its certificates (C84); QUIC; the framing of WebSockets; timeouts (C54).  Behaviour of dependencies
that is used: with ALPN a connection is made exactly if a protocol is common; `tungstenite` 0.20 takes any response 101, a
browser only one that selects a protocol that was asked for (RFC 6455, 4.1).
-/
set_option linter.unusedSimpArgs false
set_option linter.unusedVariables false

namespace Bonsai.Hand

/-- Text as bytes. -/
def text (s : String) : List Nat := s.toList.map Char.toNat

/-- `CURRENT_PROTOCOL_VERSION`, core `networking.rs:15`. -/
def current : List Nat := text "bonsai-pre-1"

/-! ## The client -/

/-- What a URL says: its scheme (lower case, by crate `url`), its host and its port, if it names one that is not the
scheme's own. -/
structure Address where
  scheme : String
  host : String
  port : Option Nat

/-- How the client connects. -/
inductive Transport where
  | quic | websocket | browserSocket
  deriving DecidableEq

/-- The match on the scheme, client.rs:351-370; `none` is `InvalidUrl`.  With feature `websockets`. -/
def transport (browser : Bool) (a : Address) : Option Transport :=
  if a.scheme = "bonsaidb" ∧ browser = false then some .quic
  else if a.scheme = "wss" ∨ a.scheme = "ws" then some (if browser then .browserSocket else .websocket)
  else none

/-- The port that QUIC connects to: quic_worker.rs:31-33. -/
def quicPort (a : Address) : Nat := a.port.getD 5645

/-- Headers of HTTP, in the order sent: name and value. -/
abbrev Headers := List (String × List Nat)

/-- The request of the native client, tungstenite_worker.rs:43-53: `Host` is `host_str`, without the port. -/
def clientRequest (a : Address) (version key : List Nat) : Headers :=
  [("sec-websocket-protocol", version), ("sec-websocket-version", text "13"), ("sec-websocket-key", key),
    ("host", text a.host), ("connection", text "Upgrade"), ("upgrade", text "websocket")]

/-! ## The server -/

/-- An answer of HTTP: its status and the protocol it selects. -/
structure Answer where
  status : Nat
  protocol : Option (List Nat)
  deriving DecidableEq

/-- `headers().get(name)`: the first value; names are compared without regard to case and given here in lower case. -/
def header (h : Headers) (name : String) : Option (List Nat) := (h.find? fun x => x.1 = name).map Prod.snd

/-- `HeaderValue::to_str` succeeds. -/
def readable (v : List Nat) : Bool := v.all fun b => (32 ≤ b && b < 127) || b = 9

/-- `split(',')`. -/
def splitComma : List Nat → List (List Nat)
  | [] => [[]]
  | c :: cs => if c = 44 then [] :: splitComma cs else match splitComma cs with
    | [] => [[c]]
    | p :: ps => (c :: p) :: ps

def blank (b : Nat) : Bool := b = 32 || b = 9

/-- `str::trim`, for what `readable` lets through. -/
def trim (v : List Nat) : List Nat := ((v.dropWhile blank).reverse.dropWhile blank).reverse

/-- `VersionChecker::on_request`, websockets.rs:242-266. -/
def checkVersion (h : Headers) : Answer :=
  match header h "sec-websocket-protocol" with
  | some v =>
    if readable v = true ∧ current ∈ (splitComma v).map trim then ⟨101, some current⟩ else ⟨406, none⟩
  | none => ⟨406, none⟩

/-- `upgrade_websocket`, websockets.rs:39-90: its answer; the connection is used as soon as it was made. -/
def upgrade (h : Headers) : Answer :=
  if (header h "upgrade").isNone then ⟨400, none⟩
  else if (header h "sec-websocket-key").isNone then ⟨400, none⟩
  else ⟨101, none⟩

/-- Where the connection arrives: the server's own listener (`accept_hdr_async`, websockets.rs:31; what `tungstenite`
itself demands of a request is met by clients), a service that calls `upgrade_websocket`. -/
inductive Place where
  | listener | upgrade
  deriving DecidableEq

def Place.answer : Place → Headers → Answer
  | .listener, h => checkVersion h
  | .upgrade, h => Hand.upgrade h

/-! ## What the client makes of it -/

inductive Outcome where
  | connected
  /-- `ProtocolVersionMismatch`. -/
  | mismatch
  /-- Any other error. -/
  | failed
  deriving DecidableEq

/-- `connect_async` and `From<WebSocketError>`, error.rs:120-128. -/
def nativeOutcome (a : Answer) : Outcome :=
  if a.status = 101 then .connected else if a.status = 406 then .mismatch else .failed

/-- A browser; `From<WebSocketError>`, error.rs:130-133. -/
def browserOutcome (version : List Nat) (a : Answer) : Outcome :=
  if a.status = 101 ∧ a.protocol = some version then .connected else .failed

/-- QUIC: server.rs:386, quic_worker.rs:171-188. -/
def quicOutcome (offered : List (List Nat)) : Outcome :=
  if ∃ v, v ∈ offered ∧ v ∈ [current] then .connected else .mismatch

/-- A client of some version connects. -/
def connect (t : Transport) (p : Place) (a : Address) (version key : List Nat) : Outcome :=
  match t with
  | .quic => quicOutcome [version]
  | .websocket => nativeOutcome (p.answer (clientRequest a version key))
  | .browserSocket => browserOutcome version (p.answer (clientRequest a version key))

/-! ## The routes of TCP connections -/

/-- `StandardTcpProtocols`, tcp.rs:303-308, with feature `acme`. -/
inductive Proto where
  | http1 | acme | other
  deriving DecidableEq

/-- `alpn_name`, tcp.rs:328-337; `none` is its panic. -/
def Proto.name : Proto → Option String
  | .http1 => some "http/1.1"
  | .acme => some "acme-tls/1"
  | .other => none

/-- What becomes of a connection. -/
inductive Route where
  /-- Closed without a word. -/
  | closed
  | service
  | websocket
  /-- Its task panicked. -/
  | panicked
  deriving DecidableEq

/-- `handle_tcp_connection`, tcp.rs:139-170: `takes` says whether the service keeps the connection. -/
def route (takes : Proto → Bool) (p : Proto) : Route :=
  match p.name with
  | none => .panicked
  | some n => if n = "acme-tls/1" then .closed else if takes p then .service else .websocket

/-- A connection: `secure` with TLS, and what ALPN selected; tcp.rs:37-49, 112-133.  With TLS the listener names all the
protocols of the service when it starts (tcp.rs:89-93) and panics if it cannot: no connection is taken. -/
def accept (takes : Proto → Bool) (available : List Proto) (secure : Bool) (alpn : Option String) : Option Route :=
  match available with
  | [] => none
  | p :: ps =>
    if secure then
      if (p :: ps).any fun q => q.name.isNone then none
      else some (route takes ((alpn.bind fun n => (p :: ps).find? fun q => q.name = some n).getD p))
    else some (route takes p)

end Bonsai.Hand
