import Verif.Identity.C48

/-!
# Model of the sessions of a server's clients

`crates/bonsaidb-server/src/server.rs` (connections, the lookup of a request's session, the workers),
`server/connected_client.rs` (the sessions of a connection), `dispatch.rs` (authentication and logout),
and what a client handle sends (`crates/bonsaidb-client/src/client.rs`), over the storage's sessions
(`Verif/Identity`).

Simplified: connections are numbered and never share a number (the server's ids are a counter of
32 bits that skips ids in use, server.rs:458-474); a worker runs a request in one step, but waiting
requests run in any order; backends and subscribers are not modelled.
-/
namespace Bonsai.Remote
open Bonsai Bonsai.Names Bonsai.Ident

/-- The requests that concern sessions, and all others (dispatch.rs:186-257). -/
inductive Request where
  | password (user : Ref) (password : Bytes)
  | assumeIdentity (i : IdentityRef)
  | beginToken (id : Id) (time : Nat) (timeHash : Bytes) (now now' : Nat) (nonce : Bytes)
  | finishToken (hash : Bytes)
  | logOut (session : Nat)
  | other (body : Bytes)

/-- A request that was given to the workers with the session it runs with: `ClientRequest`,
server.rs:862-885. `number` identifies it. -/
structure Waiting where
  number : Nat
  connection : Nat
  sessionId : Option Nat
  session : Session
  request : Request

/-- The server: its storage, `default_session` (server.rs:171-174, its id is `None`), the connected
clients, the sessions of each (`ConnectedClientData::sessions`, connected_client.rs:43, without the
entry for `None`, which is the default session), the requests the workers have not run yet, and the
numbers of requests received and of connections accepted. -/
structure Srv where
  st : St
  defaults : Permissions
  connected : List Nat
  sessions : Nat → List (Nat × Session)
  waiting : List Waiting
  received : Nat
  connections : Nat

/-- `default_session`, server.rs:171-174. -/
def Srv.defaultSession (σ : Srv) : Session := ⟨none, .none, σ.defaults⟩

/-- `ConnectedClient::session`, connected_client.rs:119-122, with the default for an unknown id,
server.rs:661-663. -/
def Srv.lookup (σ : Srv) (c : Nat) (sid : Option Nat) : Session :=
  match sid with
  | none => σ.defaultSession
  | some i =>
    match (σ.sessions c).find? fun p => p.1 = i with
    | some p => p.2
    | none => σ.defaultSession

/-- `f` with another value at `a`. -/
def setAt {β : Type} (f : Nat → β) (a : Nat) (b : β) : Nat → β := fun x => if x = a then b else f x

/-- `ConnectedClient::logged_in_as`, connected_client.rs:79-88. -/
def Srv.loggedInAs (σ : Srv) (c : Nat) (h : Handle) : Srv :=
  match h.effective with
  | some s =>
    match s.id with
    | some i => { σ with sessions := setAt σ.sessions c ((i, s) :: (σ.sessions c).filter fun p => p.1 ≠ i) }
    | none => σ
  | none => σ

/-- `ConnectedClient::log_out`, connected_client.rs:90-93. -/
def Srv.logOut (σ : Srv) (c : Nat) (i : Nat) : Srv :=
  { σ with sessions := setAt σ.sessions c ((σ.sessions c).filter fun p => p.1 ≠ i) }

/-- The call of the storage a request makes on the client's handle, dispatch.rs:186-237. -/
def Request.event (h : Handle) : Request → Option Event
  | .password u p => some (.password h u p)
  | .assumeIdentity i => some (.assumeIdentity h i)
  | .beginToken id t th n n' no => some (.beginToken h id t th n n' no)
  | .finishToken hash => some (.finishToken h hash)
  | .logOut _ => none
  | .other _ => none

/-- What a worker does with a request once it has the client's handle: dispatch.rs:186-257; the new
session is entered for the client if there is one. -/
def Srv.handle (H : Hashes) (σ : Srv) (c : Nat) (h : Handle) (r : Request) : Option Handle × Srv :=
  match r with
  | .logOut i => (none, σ.logOut c i)
  | r =>
    match r.event h with
    | none => (none, σ)
    | some e =>
      match (σ.st.next H e).1 with
      | .ok h' => (some h', Srv.loggedInAs { σ with st := (σ.st.next H e).2 } c h')
      | .error _ => (none, { σ with st := (σ.st.next H e).2 })

/-- What happens. `ran` carries the handle the request ran with and the handle it obtained. -/
inductive Label where
  | connect (c : Nat)
  | disconnect (c : Nat)
  | receive (n c : Nat) (sid : Option Nat) (r : Request)
  | ran (n c : Nat) (sid : Option Nat) (r : Request) (h : Handle) (got : Option Handle)
  | refused (n c : Nat)
  | restart
  | records (adm : Adm) (tokens : Id → Option Token)

/-- A step of the server. -/
inductive Step (H : Hashes) : Srv → Label → Srv → Prop
  /-- `initialize_client`, server.rs:445-474. -/
  | connect (σ : Srv) :
      Step H σ (.connect σ.connections) { σ with
        connected := σ.connections :: σ.connected
        connections := σ.connections + 1 }
  /-- `disconnect_client`, server.rs:487-510: waiting requests keep their client. -/
  | disconnect (σ : Srv) (c : Nat) :
      Step H σ (.disconnect c) { σ with connected := σ.connected.filter fun x => x ≠ c }
  /-- `handle_request_through_worker`, server.rs:651-673: the session is looked up by the id in the
  payload, whatever the client put there. -/
  | receive (σ : Srv) (c : Nat) (sid : Option Nat) (r : Request) (h : c ∈ σ.connected) :
      Step H σ (.receive σ.received c sid r) { σ with
        waiting := σ.waiting ++ [⟨σ.received, c, sid, σ.lookup c sid, r⟩]
        received := σ.received + 1 }
  /-- A worker, server.rs:132-155: `assume_session` on the server's own handle, then the handler. -/
  | run (σ : Srv) (q : Waiting) (hq : q ∈ σ.waiting) (h : Handle)
      (hs : σ.st.assumeSession .local q.session = .ok h) :
      Step H σ
        (.ran q.number q.connection q.sessionId q.request h
          (Srv.handle H { σ with waiting := σ.waiting.filter fun w => w.number ≠ q.number }
            q.connection h q.request).1)
        (Srv.handle H { σ with waiting := σ.waiting.filter fun w => w.number ≠ q.number }
          q.connection h q.request).2
  /-- The session is no longer known to the storage: server.rs:156. -/
  | refuse (σ : Srv) (q : Waiting) (hq : q ∈ σ.waiting) (e : Err)
      (hs : σ.st.assumeSession .local q.session = .error e) :
      Step H σ (.refused q.number q.connection)
        { σ with waiting := σ.waiting.filter fun w => w.number ≠ q.number }
  /-- The server process ends and is started again: sessions are kept in memory only
  (storage.rs:215-219), ids start again at 1. -/
  | restart (σ : Srv) :
      Step H σ .restart { σ with
        st := { σ.st with sessions := [], lastId := 0 }
        connected := [], sessions := fun _ => [], waiting := [] }
  /-- The admin database changes by other means. -/
  | records (σ : Srv) (adm : Adm) (tokens : Id → Option Token) :
      Step H σ (.records adm tokens) { σ with st := { σ.st with adm := adm, tokens := tokens } }

/-- An execution and what happened in it. -/
inductive Exec (H : Hashes) : Srv → List Label → Srv → Prop
  | nil (σ) : Exec H σ [] σ
  | snoc {σ tr σ' l σ''} (h : Exec H σ tr σ') (k : Step H σ' l σ'') : Exec H σ (tr ++ [l]) σ''

/-- A server that was just started: `CustomServer::open`. -/
structure Srv.Fresh (σ : Srv) : Prop where
  sessions : σ.st.sessions = []
  lastId : σ.st.lastId = 0
  connected : σ.connected = []
  none : ∀ c, σ.sessions c = []
  waiting : σ.waiting = []

/-- A handle of a client: the session it got from `authenticate` or `assume_identity`, and the number
of the client's connection it got it on (`ClientSession`, client.rs:748-752, 765-769). -/
structure ClientHandle where
  session : Session
  connection : Nat

/-- `session_is_current`, client.rs:637-640: `current` is the number of the client's connection now
(tungstenite_worker.rs:39, quic_worker.rs:42). It decides what `session()` returns (client.rs:652-654)
and whether a dropped handle logs out (client.rs:236-241). -/
def ClientHandle.sessionIsCurrent (h : ClientHandle) (current : Nat) : Bool :=
  h.session.id.isNone || current == h.connection

/-- The session id in the payloads a handle sends, client.rs:494-497: always that of its session,
whichever connection the client has by then. -/
def ClientHandle.payloadSession (h : ClientHandle) (_current : Nat) : Option Nat := h.session.id

/-! ## Specification -/

/-- Connection `c` logged in and got session `s`: a request of it was answered with the session. -/
def LoggedIn (tr : List Label) (c : Nat) (s : Session) : Prop :=
  ∃ n sid r h h', Label.ran n c sid r h (some h') ∈ tr ∧ h'.effective = some s

/-- Connection `c` logged out of the session with id `i`. -/
def LoggedOut (tr : List Label) (c : Nat) (i : Nat) : Prop :=
  ∃ n sid h got, Label.ran n c sid (.logOut i) h got ∈ tr

/-- A handle acts as this identity and may do exactly what these permissions allow. -/
def RunsAs (h : Handle) (who : Auth) (p : Permissions) : Prop :=
  (∃ e, h.effective = some e ∧ e.auth = who) ∧ ∀ r a, h.allowed r a = p.allows r a

end Bonsai.Remote
