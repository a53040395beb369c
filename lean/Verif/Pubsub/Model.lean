import Verif.Names.Namespaces

/-!
# Model of publish/subscribe, local and remote

`crates/bonsaidb-local/src/storage/pubsub.rs`, `database/pubsub.rs` (subscribers of a storage),
`crates/bonsaidb-core/src/pubsub.rs` (topics, receivers),
`crates/bonsaidb-server/src/server/connected_client.rs` (subscribers of a connected client and the tasks
that forward their messages), `dispatch.rs:534-638`, and the client's map of subscribers
(`crates/bonsaidb-client/src/client.rs:50-58, 320-345, 590-616`, `remote_database/pubsub.rs`).

The relay is the external crate `circulate`, by its documented behaviour: publishing puts the message in
the channel of every subscriber of the topic, once; channels are unbounded queues. Publishing is one
step; permission checks are in `Verif/Access`; subscriber ids do not wrap (`u64`); what the server sends
on a connection arrives in order until the connection is lost.
-/
namespace Bonsai.Pubsub
open Bonsai Bonsai.Names

/-- `circulate::Message`. -/
structure Msg where
  topic : Bytes
  payload : Bytes
  deriving DecidableEq

/-- Who holds the `Subscriber`: the caller of `create_subscriber` in the same process, a session of a
connected client (`ClientSession::subscribers`, connected_client.rs:50-54), or nobody any more. -/
inductive Owner where
  | handle
  | client (connection : Nat) (session : Option Nat)
  | nobody
  deriving DecidableEq

/-- A subscriber in the storage: its database, topics (with the database's name in front), the messages
in its channel; `connection` is where its messages are forwarded to (`forward_notifications_for`,
connected_client.rs:164-186). -/
structure Sub where
  db : String
  owner : Owner
  connection : Option Nat
  topics : List Bytes
  queue : List Msg
  deriving DecidableEq

inductive Transport where
  | webSocket
  | quic
  deriving DecidableEq

/-- The subscribers of the storage by id, and `SessionSubscribers::last_id` (storage.rs:164-168). -/
structure Table where
  subs : List (Nat × Sub)
  lastId : Nat

/-- The storage with its server and all clients.

`table`: the storage's subscribers;
`wire c`: what is on its way on connection `c` (`MessageReceived` values);
`links`: for every connection made so far, the client that made it;
`up`: the connections that are not lost;
`answers`: subscribers created for a connection whose client has not entered them in its map yet;
`maps k`: client `k`'s `SubscriberMap`, id to channel;
`handles`: the subscribers of clients (client, id, channel);
`chans`: channels made so far; `got ch`: what was put in a client's channel;
`closed`: channels whose sender is dropped;
`taken i`: what was received from a local subscriber. -/
structure World where
  table : Table
  wire : Nat → List (Nat × Msg)
  links : List (Nat × Transport)
  up : List Nat
  answers : List (Nat × Nat)
  maps : Nat → List (Nat × Nat)
  handles : List (Nat × Nat × Nat)
  chans : Nat
  got : Nat → List Msg
  closed : List Nat
  taken : Nat → List Msg

/-- `f` with another value at `a`. -/
def setAt {β : Type} (f : Nat → β) (a : Nat) (b : β) : Nat → β := fun x => if x = a then b else f x

/-- `Receiver::remove_database_prefix`, core pubsub.rs:204-212. -/
def removePrefix (m : Msg) : Msg :=
  match splitNull m.topic with
  | some (_, rest) => ⟨rest, m.payload⟩
  | none => m

/-- Change the subscriber with an id. -/
def Table.alter (t : Table) (i : Nat) (f : Sub → Sub) : Table :=
  { t with subs := t.subs.map fun p => if p.1 = i then (p.1, f p.2) else p }

/-- The subscriber with an id. -/
def Table.sub (t : Table) (i : Nat) : Option Sub := (t.subs.find? fun p => p.1 = i).map (·.2)

/-- `register_subscriber`, storage/pubsub.rs:10-36. -/
def Table.create (t : Table) (db : String) (owner : Owner) (connection : Option Nat) : Table :=
  ⟨t.subs ++ [(t.lastId + 1, ⟨db, owner, connection, [], []⟩)], t.lastId + 1⟩

/-- `circulate`'s `subscribe_to_raw`, called at database/pubsub.rs:90-91. -/
def Sub.subscribe (topic : Bytes) (s : Sub) : Sub :=
  { s with topics := databaseTopic s.db topic :: s.topics }

/-- `unsubscribe_from_raw`, called at database/pubsub.rs:100-101. -/
def Sub.unsubscribe (topic : Bytes) (s : Sub) : Sub :=
  { s with topics := s.topics.filter fun t => t ≠ databaseTopic s.db topic }

/-- The `Subscriber` is dropped (database/pubsub.rs:76-80): it is no longer subscribed to anything, what
is in its channel can still be received. -/
def Sub.finish (s : Sub) : Sub := { s with owner := .nobody, topics := [] }

/-- `publish_raw`: a message for the subscribers of its topic. -/
def Sub.offer (m : Msg) (s : Sub) : Sub :=
  if m.topic ∈ s.topics then { s with queue := s.queue ++ [m] } else s

/-- `Database::publish_bytes`, database/pubsub.rs:26-36. -/
def Table.publish (t : Table) (db : String) (topic payload : Bytes) : Table :=
  { t with subs := t.subs.map fun p => (p.1, p.2.offer ⟨databaseTopic db topic, payload⟩) }

/-- `Database::publish_bytes_to_all`, database/pubsub.rs:38-57: one message for each topic. -/
def Table.publishAll (t : Table) (db : String) (topics : List Bytes) (payload : Bytes) : Table :=
  topics.foldl (fun t topic => t.publish db topic payload) t

/-- The subscribers of a session are dropped with it: `log_out`, connected_client.rs:90-93. -/
def Table.logOut (t : Table) (c : Nat) (sid : Option Nat) : Table :=
  { t with subs := t.subs.map fun p => if p.2.owner = .client c sid then (p.1, p.2.finish) else p }

/-- A subscriber that is held: by its creator, or by the session of the client whose request names it
(`subscribe_by_id` and the like look it up under the request's session, connected_client.rs:188-254). -/
def Table.held (t : Table) (owner : Owner) (i : Nat) : Prop :=
  owner ≠ .nobody ∧ ∃ s, t.sub i = some s ∧ s.owner = owner

/-- `SubscriberMap` lookup. -/
def channelOf (m : List (Nat × Nat)) (i : Nat) : Option Nat := (m.find? fun p => p.1 = i).map (·.2)

/-- A message for a channel, if there is one. -/
def putIn (got : Nat → List Msg) (ch : Option Nat) (m : Msg) : Nat → List Msg :=
  match ch with
  | some ch => setAt got ch (got ch ++ [m])
  | none => got

/-- What happens. -/
inductive Label where
  | created (i : Nat) (db : String) (owner : Owner)
  | subscribed (i : Nat) (topic : Bytes)
  | unsubscribed (i : Nat) (topic : Bytes)
  | ended (i : Nat)
  | loggedOut (c : Nat) (sid : Option Nat)
  | published (db : String) (topics : List Bytes) (payload : Bytes)
  | connected (c client : Nat)
  | lost (c : Nat)
  | registered (c i ch : Nat)
  | dropped (client i ch : Nat)
  | moved
  | restarted

/-- What calls in the process and requests of clients do to the subscribers. Requests are whatever the
clients send: every session and every id; `held` is what the server checks. -/
inductive Table.Step : Table → Label → Table → Prop
  /-- `create_subscriber`, database/pubsub.rs:15-24. -/
  | create (t : Table) (db : String) (hdb : NullFree db) :
      Table.Step t (.created (t.lastId + 1) db .handle) (t.create db .handle none)
  /-- `subscribe_to_bytes`, database/pubsub.rs:84-93; `SubscribeTo`, connected_client.rs:188-208. -/
  | subscribe (t : Table) (o : Owner) (i : Nat) (topic : Bytes) (h : t.held o i) :
      Table.Step t (.subscribed i topic) (t.alter i (Sub.subscribe topic))
  /-- `unsubscribe_from_bytes`, database/pubsub.rs:95-104; `UnsubscribeFrom`, connected_client.rs:210-231. -/
  | unsubscribe (t : Table) (o : Owner) (i : Nat) (topic : Bytes) (h : t.held o i) :
      Table.Step t (.unsubscribed i topic) (t.alter i (Sub.unsubscribe topic))
  /-- The last clone of a local subscriber is dropped; `UnregisterSubscriber`,
  connected_client.rs:233-254. -/
  | finish (t : Table) (o : Owner) (i : Nat) (h : t.held o i) :
      Table.Step t (.ended i) (t.alter i Sub.finish)
  /-- `LogOutSession`. -/
  | logOut (t : Table) (c : Nat) (sid : Nat) :
      Table.Step t (.loggedOut c (some sid)) (t.logOut c (some sid))
  /-- `publish_bytes` and `publish_bytes_to_all`, by a caller in the process or for a client
  (dispatch.rs:557-588). -/
  | publish (t : Table) (db : String) (ts : List Bytes) (payload : Bytes) (hdb : NullFree db) :
      Table.Step t (.published db ts payload) (t.publishAll db ts payload)

/-- A step. -/
inductive Step : World → Label → World → Prop
  /-- A call in the process or a request of a client. -/
  | call (w : World) (l : Label) (t : Table) (h : w.table.Step l t) : Step w l { w with table := t }
  /-- `CreateSubscriber`, dispatch.rs:535-554, connected_client.rs:131-156. -/
  | create (w : World) (c : Nat) (sid : Option Nat) (db : String) (hdb : NullFree db)
      (hc : c < w.links.length) :
      Step w (.created (w.table.lastId + 1) db (.client c sid)) { w with
        table := w.table.create db (.client c sid) (some c)
        answers := (c, w.table.lastId + 1) :: w.answers }
  /-- The session was logged out while the request ran: connected_client.rs:145-147. The subscriber is
  dropped, its id is returned. -/
  | createOrphan (w : World) (c : Nat) (db : String) (hdb : NullFree db) (hc : c < w.links.length) :
      Step w (.created (w.table.lastId + 1) db .nobody) { w with
        table := w.table.create db .nobody none
        answers := (c, w.table.lastId + 1) :: w.answers }
  /-- A local subscriber receives: core pubsub.rs:175-203. -/
  | receive (w : World) (i : Nat) (s : Sub) (m : Msg) (q : List Msg) (hs : w.table.sub i = some s)
      (ho : s.connection = none) (hq : s.queue = m :: q) :
      Step w .moved { w with
        table := w.table.alter i fun s => { s with queue := q }
        taken := setAt w.taken i (w.taken i ++ [removePrefix m]) }
  /-- `forward_notifications_for`, connected_client.rs:171-184, on a connection that is up. -/
  | forward (w : World) (i : Nat) (s : Sub) (c : Nat) (m : Msg) (q : List Msg)
      (hs : w.table.sub i = some s) (hc : s.connection = some c) (hq : s.queue = m :: q) (hup : c ∈ w.up) :
      Step w .moved { w with
        table := w.table.alter i fun s => { s with queue := q }
        wire := setAt w.wire c (w.wire c ++ [(i, removePrefix m)]) }
  /-- The same on a connection that is lost: the task ends (connected_client.rs:181-183) and with it, if
  it was the last, the client's data with all its subscribers. -/
  | forwardFails (w : World) (i : Nat) (s : Sub) (c : Nat) (m : Msg) (q : List Msg)
      (hs : w.table.sub i = some s) (hc : s.connection = some c) (hq : s.queue = m :: q) (hup : c ∉ w.up) :
      Step w (.ended i) { w with table := w.table.alter i fun s => { s.finish with queue := q } }
  /-- The same before the server notices the loss: the message is gone. -/
  | forwardLost (w : World) (i : Nat) (s : Sub) (c : Nat) (m : Msg) (q : List Msg)
      (hs : w.table.sub i = some s) (hc : s.connection = some c) (hq : s.queue = m :: q) (hup : c ∉ w.up) :
      Step w .moved { w with table := w.table.alter i fun s => { s with queue := q } }
  /-- A client connects, for the first time or after it lost its connection. -/
  | connect (w : World) (k : Nat) (tp : Transport) (hk : ∀ c ∈ w.up, ∀ tp', w.links[c]? ≠ some (k, tp')) :
      Step w (.connected w.links.length k) { w with
        links := w.links ++ [(k, tp)], up := w.links.length :: w.up }
  /-- A connection is lost. A client that uses WebSockets clears its map, which drops the senders
  (tungstenite_worker.rs:30-33), a client that uses QUIC does not (quic_worker.rs:35). The server drops
  nothing: the forwarding tasks hold the client's data. -/
  | lose (w : World) (c k : Nat) (tp : Transport) (hl : w.links[c]? = some (k, tp)) (hup : c ∈ w.up) :
      Step w (.lost c) { w with
        up := w.up.filter fun x => x ≠ c
        wire := setAt w.wire c []
        maps := if tp = .webSocket then setAt w.maps k [] else w.maps
        closed := if tp = .webSocket then (w.maps k).map (·.2) ++ w.closed else w.closed }
  /-- `create_subscriber` returns on the client: `register_subscriber`, client.rs:590-593. -/
  | register (w : World) (c i k : Nat) (tp : Transport) (ha : (c, i) ∈ w.answers)
      (hl : w.links[c]? = some (k, tp)) :
      Step w (.registered c i w.chans) { w with
        answers := w.answers.filter fun a => a ≠ (c, i)
        maps := setAt w.maps k ((i, w.chans) :: (w.maps k).filter fun p => p.1 ≠ i)
        handles := (k, i, w.chans) :: w.handles
        closed := ((w.maps k).filter fun p => p.1 = i).map (·.2) ++ w.closed
        chans := w.chans + 1 }
  /-- The callback for `MessageReceived`, client.rs:326-341. -/
  | deliver (w : World) (c k i : Nat) (tp : Transport) (m : Msg) (q : List (Nat × Msg))
      (hl : w.links[c]? = some (k, tp)) (hq : w.wire c = (i, m) :: q) :
      Step w .moved { w with
        wire := setAt w.wire c q
        got := putIn w.got (channelOf (w.maps k) i) m }
  /-- A subscriber of client `k` was dropped, and its request to unregister was answered, on whichever
  connection the client has by then: client.rs:595-605. -/
  | forget (w : World) (k i ch : Nat) (hh : (k, i, ch) ∈ w.handles) :
      Step w (.dropped k i ch) { w with
        handles := w.handles.filter fun x => x ≠ (k, i, ch)
        maps := setAt w.maps k ((w.maps k).filter fun p => p.1 ≠ i)
        closed := ((w.maps k).filter fun p => p.1 = i).map (·.2) ++ w.closed }
  /-- The server process has ended, with all connections, and is started again: subscribers are kept in
  memory only, ids start again at 1. -/
  | restart (w : World) (h : w.up = []) :
      Step w .restarted { w with table := ⟨[], 0⟩, wire := fun _ => [], taken := fun _ => [] }

/-- An execution. -/
inductive Exec : World → List Label → World → Prop
  | nil (w) : Exec w [] w
  | snoc {w tr w' l w''} (h : Exec w tr w') (k : Step w' l w'') : Exec w (tr ++ [l]) w''

/-- Nothing has happened yet. -/
def World.initial : World where
  table := ⟨[], 0⟩
  wire := fun _ => []
  links := []
  up := []
  answers := []
  maps := fun _ => []
  handles := []
  chans := 0
  got := fun _ => []
  closed := []
  taken := fun _ => []

/-! ## Specification -/

/-- What a subscriber of database `db` should receive in a history, `topics` being what it is subscribed
to before it: a message for every publication in its database to a topic it is subscribed to at that
time, in the order of the publications, until it ends. -/
def wanted (i : Nat) (db : String) (owner : Owner) : List Bytes → List Label → List Msg
  | _, [] => []
  | topics, .subscribed j t :: tr => wanted i db owner (if j = i then t :: topics else topics) tr
  | topics, .unsubscribed j t :: tr =>
    wanted i db owner (if j = i then topics.filter fun x => x ≠ t else topics) tr
  | topics, .ended j :: tr => if j = i then [] else wanted i db owner topics tr
  | topics, .loggedOut c sid :: tr => if owner = .client c sid then [] else wanted i db owner topics tr
  | topics, .published d ts p :: tr =>
    (if d = db then (ts.filter fun t => t ∈ topics).map fun t => ⟨t, p⟩ else []) ++ wanted i db owner topics tr
  | topics, _ :: tr => wanted i db owner topics tr

/-- No restart of the server in a history. -/
def NoRestart (tr : List Label) : Prop := Label.restarted ∉ tr

end Bonsai.Pubsub
