import Verif.Net.Server

/-!
# The clients of a server, their sessions and the backend's callbacks (model)

`crates/bonsaidb-server/src/server.rs:430-510`, `server/connected_client.rs:33-332`, the handlers `Authenticate`,
`AssumeIdentity` and `LogOutSession` of `dispatch.rs:188-258` and the callbacks of `backend.rs:41-107`.

Connections are numbered by the order in which the accept loops hand them over; the number is not visible to the server.
Tasks interleave between any two locks or callbacks.  What a session may do, its subscribers and the client data are
left out; requests reach their handlers as in C54/C55.
-/
set_option linter.unusedVariables false

namespace Bonsai.Net

/-- A `Session` of a client: its id and whether it has an identity (a `TokenChallenge` and the default session have
none), core/src/connection.rs:3600-3660. -/
structure CSession where
  id : Option Nat
  identity : Bool
  deriving DecidableEq

/-- The session every client starts with, connected_client.rs:285-292. -/
def CSession.initial : CSession := ⟨none, false⟩

/-- How far the server is with a connection. -/
inductive CStage where
  /-- In the map, before `client_connected` is called, server.rs:470-475. -/
  | inserted
  /-- `client_connected` runs, server.rs:475. -/
  | greeting
  /-- Accepted, server.rs:476. -/
  | serving
  /-- The `OwnedClient` was dropped (rejected, or the connection ended), connected_client.rs:315-323. -/
  | leaving
  /-- Removed from the map, server.rs:488-491. -/
  | removed
  /-- `set_disconnected` was called, server.rs:494. -/
  | marked
  /-- The loop over the sessions found by `all_sessions`, server.rs:495-504. -/
  | ending (left : List CSession)
  /-- `client_disconnected` was called, server.rs:506. -/
  | gone
  deriving DecidableEq

/-- `ConnectedClientData`, connected_client.rs:39-48; `sink` says whether something still receives from the response
channel, `accepted` whether `initialize_client` returned the client. -/
structure CConn where
  id : Nat
  stage : CStage
  sessions : List CSession
  connected : Bool
  accepted : Bool
  sink : Bool
  outbox : List (Option Nat × List UInt8)
  deriving DecidableEq

/-- A call of one of the backend's callbacks. -/
inductive CEvent where
  | connected (c : Nat)
  | authenticated (c : Nat) (s : CSession)
  | ended (c : Nat) (s : CSession) (disconnecting : Bool)
  | disconnected (c : Nat)
  deriving DecidableEq

/-- The server: the connections, the map of clients (`data.clients`), `CONNECTED_CLIENT_ID_COUNTER`, the last session
id, the calls of the callbacks so far, and the handlers between changing a client's sessions and calling the callback. -/
structure CWorld where
  conns : Nat → Option CConn
  map : Nat → Option Nat
  counter : Nat
  lastSession : Nat
  log : List CEvent
  auths : List (Nat × CSession)
  ends : List (Nat × CSession)

/-- A function changed at one place. -/
def CWorld.at {α : Type} (f : Nat → α) (i : Nat) (v : α) : Nat → α := fun j => if j = i then v else f j

/-- A server nobody has connected to yet. -/
def CWorld.empty : CWorld := ⟨fun _ => none, fun _ => none, 0, 0, [], [], []⟩

/-- The connection `c` in a changed condition. -/
def CWorld.setC (w : CWorld) (c : Nat) (k : CConn) : CWorld := { w with conns := CWorld.at w.conns c (some k) }

/-- `CONNECTED_CLIENT_ID_COUNTER.fetch_add(1)`, server.rs:459; the counter is a `u32`. -/
def CWorld.bump (w : CWorld) : CWorld := { w with counter := (w.counter + 1) % 2 ^ 32 }

/-- `OwnedClient::new`, connected_client.rs:277-310. -/
def CConn.new (id : Nat) : CConn := ⟨id, .inserted, [CSession.initial], true, false, true, []⟩

/-- The vacant case of the loop, server.rs:461-471. -/
def CWorld.insert (w : CWorld) (c : Nat) : CWorld :=
  { w.setC c (CConn.new w.counter) with
    map := CWorld.at w.map w.counter (some c)
    counter := (w.counter + 1) % 2 ^ 32 }

/-- A callback is called. -/
def CWorld.call (w : CWorld) (e : CEvent) : CWorld := { w with log := w.log ++ [e] }

/-- `logged_in_as`, connected_client.rs:79-88: sessions are kept by id. -/
def CConn.loggedInAs (k : CConn) (s : CSession) : CConn :=
  { k with sessions := s :: k.sessions.filter (fun t => t.id != s.id) }

/-- `log_out`, connected_client.rs:90-93: what is left. -/
def CConn.logOut (k : CConn) (i : Nat) : CConn :=
  { k with sessions := k.sessions.filter (fun t => t.id != some i) }

/-- `send`, connected_client.rs:96-109, and `broadcast`'s use of it, server.rs:441: nothing happens when nobody receives
any more. -/
def CConn.send (k : CConn) (s : Option Nat) (m : List UInt8) : CConn :=
  if k.sink then { k with outbox := k.outbox ++ [(s, m)] } else k

/-- `broadcast`, server.rs:437-443: to every client of the map, with no session. -/
def CWorld.broadcast (w : CWorld) (m : List UInt8) : CWorld :=
  { w with
    conns := fun c => (w.conns c).map fun k => if w.map k.id = some c then k.send none m else k }

/-- `connected_clients`, server.rs:431-434: the values of the hash map in some order. -/
def CWorld.Lists (w : CWorld) (l : List Nat) : Prop :=
  ∃ ids : List Nat, ids.Nodup ∧ (∀ i, i ∈ ids ↔ (w.map i).isSome) ∧ l = ids.filterMap w.map

/-- One step of one of the tasks. `allowed` says whether unauthenticated clients may connect (server.rs:451-456; a
connection that may not leaves no trace). -/
inductive CStep (allowed : Bool) : CWorld → CWorld → Prop
  /-- An id in use is skipped, server.rs:458-461. -/
  | skip {w : CWorld} : allowed = true → (w.map w.counter).isSome → CStep allowed w w.bump
  /-- A free id is taken, server.rs:461-471. -/
  | insert {w : CWorld} (c : Nat) : allowed = true → w.conns c = none → w.map w.counter = none →
      CStep allowed w (w.insert c)
  /-- `client_connected` is called, server.rs:475. -/
  | greet {w : CWorld} {c : Nat} {k : CConn} : w.conns c = some k → k.stage = .inserted →
      CStep allowed w ((w.setC c { k with stage := .greeting }).call (.connected c))
  /-- It accepts, server.rs:476. -/
  | accept {w : CWorld} {c : Nat} {k : CConn} : w.conns c = some k → k.stage = .greeting →
      CStep allowed w (w.setC c { k with stage := .serving, accepted := true })
  /-- It rejects or fails, server.rs:477-483: the `OwnedClient` is dropped. -/
  | reject {w : CWorld} {c : Nat} {k : CConn} : w.conns c = some k → k.stage = .greeting →
      CStep allowed w (w.setC c { k with stage := .leaving })
  /-- The connection ends or the server shuts down: `handle_client_requests` returns, server.rs:596-608, 723-735. -/
  | leave {w : CWorld} {c : Nat} {k : CConn} : w.conns c = some k → k.stage = .serving →
      CStep allowed w (w.setC c { k with stage := .leaving })
  /-- `disconnect_client`, server.rs:488-491. -/
  | remove {w : CWorld} {c : Nat} {k : CConn} : w.conns c = some k → k.stage = .leaving →
      CStep allowed w { w.setC c { k with stage := .removed } with map := CWorld.at w.map k.id none }
  /-- server.rs:494. -/
  | mark {w : CWorld} {c : Nat} {k : CConn} : w.conns c = some k → k.stage = .removed →
      CStep allowed w (w.setC c { k with stage := .marked, connected := false })
  /-- server.rs:495: the sessions in the order of the hash map. -/
  | collect {w : CWorld} {c : Nat} {k : CConn} (ss : List CSession) : w.conns c = some k → k.stage = .marked →
      ss.Perm k.sessions → CStep allowed w (w.setC c { k with stage := .ending ss })
  /-- server.rs:496-503. -/
  | endOne {w : CWorld} {c : Nat} {k : CConn} {s : CSession} {ss : List CSession} : w.conns c = some k →
      k.stage = .ending (s :: ss) →
      CStep allowed w ((w.setC c { k with stage := .ending ss }).call (.ended c s true))
  /-- server.rs:506-508. -/
  | finish {w : CWorld} {c : Nat} {k : CConn} : w.conns c = some k → k.stage = .ending [] →
      CStep allowed w ((w.setC c { k with stage := .gone }).call (.disconnected c))
  /-- `Authenticate` or `AssumeIdentity` succeeded with a new session, dispatch.rs:195-201, 223-226, and
  local/src/storage.rs:817-834, 851-868, token_authentication.rs:46-64. Requests of an accepted client may be handled at any later
  time: the workers keep the client. -/
  | login {w : CWorld} {c : Nat} {k : CConn} (identity : Bool) : w.conns c = some k → k.accepted = true →
      CStep allowed w
        { w.setC c (k.loggedInAs ⟨some (w.lastSession + 1), identity⟩) with
          lastSession := w.lastSession + 1
          auths := (c, ⟨some (w.lastSession + 1), identity⟩) :: w.auths }
  /-- `client_authenticated` is called, dispatch.rs:203-210, 228-235. -/
  | announce {w : CWorld} {c : Nat} {s : CSession} {l r : List (Nat × CSession)} : w.auths = l ++ (c, s) :: r →
      CStep allowed w ({ w with auths := l ++ r }.call (.authenticated c s))
  /-- `LogOutSession`, dispatch.rs:241-246: a session of the client is taken off. -/
  | logout {w : CWorld} {c : Nat} {k : CConn} {s : CSession} {i : Nat} : w.conns c = some k → k.accepted = true →
      s ∈ k.sessions → s.id = some i →
      CStep allowed w { w.setC c (k.logOut i) with ends := (c, s) :: w.ends }
  /-- `client_session_ended` is called, dispatch.rs:247-251. -/
  | announceEnd {w : CWorld} {c : Nat} {s : CSession} {l r : List (Nat × CSession)} : w.ends = l ++ (c, s) :: r →
      CStep allowed w ({ w with ends := l ++ r }.call (.ended c s false))
  /-- `broadcast`, server.rs:437-443. -/
  | broadcast {w : CWorld} (m : List UInt8) : CStep allowed w (w.broadcast m)
  /-- `ConnectedClient::send`, connected_client.rs:96-109. -/
  | send {w : CWorld} {c : Nat} {k : CConn} (s : Option Nat) (m : List UInt8) : w.conns c = some k →
      CStep allowed w (w.setC c (k.send s m))
  /-- The task that receives from the response channel ends, server.rs:538-556, websockets.rs:123-136. -/
  | close {w : CWorld} {c : Nat} {k : CConn} : w.conns c = some k →
      CStep allowed w (w.setC c { k with sink := false })

/-- Any number of steps. -/
inductive CSteps (allowed : Bool) : CWorld → CWorld → Prop
  | refl {w : CWorld} : CSteps allowed w w
  | step {w w' w'' : CWorld} : CSteps allowed w w' → CStep allowed w' w'' → CSteps allowed w w''

/-- What can happen to a server from its start. -/
def CReach (allowed : Bool) (w : CWorld) : Prop := CSteps allowed CWorld.empty w

end Bonsai.Net
