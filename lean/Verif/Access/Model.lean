import Verif.Views.C32
import Verif.Views.Query
import Verif.Store.C25
import Verif.KV.Model
import Verif.Names.Namespaces

/-!
# Model of the operations of a database as a session calls them

`crates/bonsaidb-local/src/database.rs` (`Connection`, `LowLevelConnection`),
`crates/bonsaidb-local/src/database/keyvalue.rs`, `crates/bonsaidb-local/src/database/pubsub.rs`,
`crates/bonsaidb-local/src/tasks.rs` (view updates started by an operation), with the permission
checks of each operation. What the operations do once permitted is modelled in `Verif/Store`,
`Verif/Views` and `Verif/KV`.

Simplified: an operation runs alone, except that view mapping jobs other sessions have queued may be
waiting; a job maps all documents in one chunk and one batch (`Verif/Views/System.lean` has the
concurrent version with chunks and batches).
-/
set_option linter.unusedSimpArgs false

namespace Bonsai.Access
open Bonsai Bonsai.Names Bonsai.Store Bonsai.Query

/-- `DatabaseAction`, core permissions/bonsai.rs:153-278. -/
inductive Act where
  | compact
  | get | list | listHeaders | count | insert | update | overwrite | delete
  | query | reduce | deleteDocs
  | listExecuted | getLastId
  | createSubscriber | publish | subscribeTo | unsubscribeFrom
  | keyOperation
  deriving DecidableEq

/-- The session of a database handle, core connection/has_session.rs:7-34: `none` is a handle without
a session, otherwise what `Session::allowed_to` answers. -/
abbrev Sess := Option (Resource → Act → Bool)

/-- `HasSession::allowed_to`, core connection/has_session.rs:12-19. -/
def Sess.allows (sess : Sess) (r : Resource) (a : Act) : Bool :=
  match sess with
  | none => true
  | some p => p r a

/-- The errors an operation can end with (core `Error`). -/
inductive Err where
  | permissionDenied
  | viewNotFound
  | store (e : Store.Err)
  | key (e : KV.Err)
  deriving DecidableEq

/-- The document action as an `Act`. -/
def ofDoc : DocAction → Act
  | .insert => .insert
  | .update => .update
  | .overwrite => .overwrite
  | .delete => .delete
  | .get => .get

/-- Whether a session may execute an operation of a transaction, database.rs:1132-1156. -/
def Sess.mayApply (sess : Sess) (dbName : String) (op : Operation) : Bool :=
  sess.allows (required dbName op).1 (ofDoc (required dbName op).2)

/-- The state behind a database handle: committed documents and views; the versions stored for views
(`view_versions`, integrity_scanner.rs:63-67); `Statuses` (tasks.rs:41-45); the mapping jobs waiting in the
queue with the session of the handle that enqueued them (`Mapper.database`, mapper.rs:28-33; at most
one for each view: `lookup_or_enqueue`); the key-value store; the subscribers and subscriptions of
the relay; what was handed to the relay; the compactions done. -/
structure World (F : Type) where
  db : Db
  versions : VName → Option Nat
  checked : List VName
  status : VName → Option Nat
  jobs : List (VName × Sess)
  kv : KV.St F
  subscribers : Nat
  relay : List (Nat × Bytes)
  published : List (Bytes × Bytes)
  compacted : List Resource

/-- The session of the mapping job waiting for a view. -/
def owner : List (VName × Sess) → VName → Option Sess
  | [], _ => none
  | (n, s) :: js, v => if n = v then some s else owner js v

/-- `lookup_or_enqueue` of a `Mapper`, tasks/manager/jobs.rs:85-102 and mapper.rs:406-410: the key of
the job is the view, not the session. -/
def enqueue (jobs : List (VName × Sess)) (v : VName) (sess : Sess) : List (VName × Sess) :=
  match owner jobs v with
  | some _ => jobs
  | none => jobs ++ [(v, sess)]

variable {F : Type}

/-- `view_by_name`, core schema/schematic.rs:141-147. -/
def findView (s : Schema) (n : VName) : Option View := s.views.find? fun v => v.name = n

/-- `IntegrityScanner::execute`, integrity_scanner.rs:45-127, run by `spawn_integrity_check`
(tasks.rs:126-152) when the check has not completed yet. An outdated view is emptied, all documents
are marked, and a mapping job is queued with the session of the caller. `true` when that happened. -/
def World.scan (w : World F) (sess : Sess) (v : View) : Bool × World F :=
  if v.name ∈ w.checked then (false, w)
  else if w.versions v.name = some v.version then
    (false, { w with checked := v.name :: w.checked })
  else
    (true, { w with
      db := ⟨{ w.db.trees with
          entries := upd w.db.trees.entries v.name .empty
          docMap := upd w.db.trees.docMap v.name .empty
          invalidated := upd w.db.trees.invalidated v.name
            (markAll .empty (w.db.trees.docs v.name.collection).keys) },
        w.db.log ++ [(w.db.lastTid, none)]⟩
      versions := upd w.versions v.name (some v.version)
      checked := v.name :: w.checked
      jobs := enqueue w.jobs v.name sess })

/-- `Mapper::execute`, mapper.rs:41-101 with `map_view` 104-158, on the handle of session `sess`: it
asks for the last transaction id through the handle, so the session's permissions are checked. -/
def World.mapWith (w : World F) (dbName : String) (sess : Sess) (v : View) :
    Except Err Nat × World F :=
  if sess.allows (.database dbName) .getLastId then
    if w.db.lastTid = 0 then (.error (.store .panic), w)
    else
      match (w.db.trees.invalidated v.name).keys with
      | [] => (.ok w.db.lastTid, { w with status := upd w.status v.name (some w.db.lastTid) })
      | ids =>
        match mapBatches v (w.db.trees.docs v.name.collection) [ids]
            (w.db.trees.entries v.name, w.db.trees.docMap v.name) with
        | .error e => (.error (.store e), w)
        | .ok (es, dm) => (.ok w.db.lastTid, { w with
            db := ⟨chunkTrees w.db.trees v ids es dm, w.db.log ++ [(w.db.lastTid, none)]⟩
            status := upd w.status v.name (some w.db.lastTid) })
  else (.error .permissionDenied, w)

/-- Waiting for the mapping job of a view: `lookup_or_enqueue(Mapper …)` and `receive`, tasks.rs:87-100.
A job that is already waiting is used as it is, with the session of whoever enqueued it. -/
def World.mapNow (w : World F) (dbName : String) (sess : Sess) (v : View) : Except Err Nat × World F :=
  let runs := (owner w.jobs v.name).getD sess
  World.mapWith { w with jobs := w.jobs.filter fun j => j.1 ≠ v.name } dbName runs v

/-- `needs_reindex`, tasks.rs:68-82: the last transaction a view was updated for is older. -/
def stale (status : Option Nat) (last : Nat) : Bool :=
  match status with
  | some t => decide (t < last)
  | none => true

/-- `update_view_if_needed`, tasks.rs:55-110: the last transaction id is read through the caller's
handle. -/
def World.updateView (w : World F) (dbName : String) (sess : Sess) (v : View) (block : Bool) :
    Except Err Unit × World F :=
  let w := (w.scan sess v).2
  if sess.allows (.database dbName) .getLastId then
    if w.db.lastTid = 0 then (.ok (), w)
    else if stale (w.status v.name) w.db.lastTid then
      if block then
        match w.mapNow dbName sess v with
        | (.ok _, w) => (.ok (), w)
        | (.error e, w) => (.error e, w)
      else (.ok (), { w with jobs := enqueue w.jobs v.name sess })
    else (.ok (), w)
  else (.error .permissionDenied, w)

/-- `AccessPolicy`, core connection.rs. -/
inductive Policy where
  | updateBefore | updateAfter | noUpdate
  deriving DecidableEq

/-- `for_each_in_view`, database.rs:196-255, for a callback that reads the entries. -/
def World.readView {α : Type} (w : World F) (dbName : String) (sess : Sess) (v : View) (p : Policy)
    (f : OMap ViewEntry → α) : Except Err α × World F :=
  match p with
  | .updateBefore =>
    match w.updateView dbName sess v true with
    | (.error e, w) => (.error e, w)
    | (.ok _, w) => (.ok (f (w.db.trees.entries v.name)), w)
  | .noUpdate =>
    let w := (w.scan sess v).2
    (.ok (f (w.db.trees.entries v.name)), w)
  | .updateAfter =>
    let w := (w.scan sess v).2
    let a := f (w.db.trees.entries v.name)
    match w.updateView dbName sess v false with
    | (.error e, w) => (.error e, w)
    | (.ok _, w) => (.ok a, w)

/-- The integrity checks of a transaction, database.rs:1158-1175: all are started first. -/
def World.scanAll (w : World F) (sess : Sess) : List View → List View × World F
  | [] => ([], w)
  | v :: vs =>
    let r := w.scan sess v
    let q := World.scanAll r.2 sess vs
    (if r.1 then v :: q.1 else q.1, q.2)

/-- Waiting for the mapping jobs the checks started, database.rs:1184-1189. -/
def World.mapAll (w : World F) (dbName : String) (sess : Sess) : List View → Except Err Unit × World F
  | [] => (.ok (), w)
  | v :: vs =>
    match w.mapNow dbName sess v with
    | (.error e, w) => (.error e, w)
    | (.ok _, w) => World.mapAll w dbName sess vs

/-- The eager views of the collections of a transaction, database.rs:1159-1165 (a `HashSet`: here in
the order of the operations). -/
def eagerViews (s : Schema) (ops : List Operation) : List View :=
  (ops.map (·.collection)).eraseDups.flatMap fun c => (s.viewsIn c).filter fun v => v.policy.isEager

/-- `apply_transaction`, database.rs:1128-1193. -/
def World.apply (s : Schema) (dbName : String) (sess : Sess) (w : World F) (tid : Nat)
    (ops : List Operation) : Except Err (List OpResult) × World F :=
  if ops.all fun op => sess.mayApply dbName op then
    let r := w.scanAll sess (eagerViews s ops)
    match r.2.mapAll dbName sess r.1 with
    | (.error e, w) => (.error e, w)
    | (.ok _, w) =>
      match applyToRoots s w.db tid ops with
      | (.error e, db) => (.error (.store e), { w with db := db })
      | (.ok rs, db) => (.ok rs, { w with db := db })
  else (.error .permissionDenied, w)

/-- A call of the database's API. `tid` is the id nebari would give a transaction the call commits,
`clock` what the clock shows. -/
inductive Request (F : Type) where
  | apply (ops : List Operation) (tid : Nat)
  | get (c : QName) (id : Bytes)
  | getMultiple (c : QName) (ids : List Bytes)
  | list (c : QName) (ids : Range Bytes) (order : Sort') (limit : Option Nat)
  | listHeaders (c : QName) (ids : Range Bytes) (order : Sort') (limit : Option Nat)
  | count (c : QName) (ids : Range Bytes)
  | query (v : VName) (key : Option (QueryKey Bytes)) (order : Sort') (limit : Option Nat) (p : Policy)
  | queryWithDocs (v : VName) (key : Option (QueryKey Bytes)) (order : Sort') (limit : Option Nat)
      (p : Policy)
  | reduce (v : VName) (key : Option (QueryKey Bytes)) (p : Policy)
  | reduceGrouped (v : VName) (key : Option (QueryKey Bytes)) (p : Policy)
  | deleteDocs (v : VName) (key : Option (QueryKey Bytes)) (p : Policy) (tid : Nat)
  | listExecuted (start limit : Option Nat)
  | lastTransactionId
  | compact
  | compactCollection (c : QName)
  | compactKeyValue
  | keyOp (ns : Option String) (key : String) (command : KV.Command F) (clock : KV.Clock)
  | createSubscriber
  | publish (topic payload : Bytes)
  | publishAll (topics : List Bytes) (payload : Bytes)
  | subscribe (sub : Nat) (topic : Bytes)
  | unsubscribe (sub : Nat) (topic : Bytes)

/-- What a call returns. -/
inductive Response (F : Type) where
  | unit
  | results (rs : List OpResult)
  | document (d : Option Document)
  | documents (ds : List Document)
  | headers (hs : List Header)
  | number (n : Nat)
  | mapped (ms : List Mapped)
  | mappedDocs (ms : List Mapped) (docs : OMap Document)
  | reduced (b : Bytes)
  | groups (gs : List (Bytes × Bytes))
  | executed (es : List (Nat × Changes))
  | lastId (id : Option Nat)
  | output (o : KV.Output F)
  | subscriber (id : Nat)

/-- `self.check_permission(resource, action)?` before the rest of an operation, core
connection/has_session.rs:24-33. -/
def guarded {α : Type} (sess : Sess) (w : World F) (r : Resource) (a : Act)
    (k : Except Err α × World F) : Except Err α × World F :=
  if sess.allows r a then k else (.error .permissionDenied, w)

/-- `get_multiple_from_collection`, database.rs:1391-1422: every document is checked first. -/
def World.getMany (dbName : String) (sess : Sess) (w : World F) (c : QName) (ids : List Bytes) :
    Except Err (List Document) × World F :=
  if ids.all fun id => sess.allows (.document dbName c id) .get then (.ok (getDocs w.db.trees c ids), w)
  else (.error .permissionDenied, w)

/-- `query_by_name`, database.rs:1458-1484. -/
def World.query (s : Schema) (dbName : String) (sess : Sess) (w : World F) (n : VName)
    (key : Option (QueryKey Bytes)) (order : Sort') (limit : Option Nat) (p : Policy) :
    Except Err (List Mapped) × World F :=
  match findView s n with
  | none => (.error .viewNotFound, w)
  | some v => guarded sess w (.view dbName v.name) .query
      (w.readView dbName sess v p fun es => queryByName es key order limit)

/-- `query_by_name_with_docs`, database.rs:1496-1525. -/
def World.queryDocs (s : Schema) (dbName : String) (sess : Sess) (w : World F) (n : VName)
    (key : Option (QueryKey Bytes)) (order : Sort') (limit : Option Nat) (p : Policy) :
    Except Err (List Mapped × OMap Document) × World F :=
  match w.query s dbName sess n key order limit p with
  | (.error e, w) => (.error e, w)
  | (.ok ms, w) =>
    match World.getMany dbName sess w n.collection (ms.map (·.source.id)) with
    | (.error e, w) => (.error e, w)
    | (.ok ds, w) => (.ok (ms, ds.foldl (fun m d => m.set d.header.id d) .empty), w)

/-- `reduce_grouped_by_name`, database.rs:1572-1593. -/
def World.reduceGroups (s : Schema) (dbName : String) (sess : Sess) (w : World F) (n : VName)
    (key : Option (QueryKey Bytes)) (p : Policy) : Except Err (List (Bytes × Bytes)) × World F :=
  match findView s n with
  | none => (.error .viewNotFound, w)
  | some v => guarded sess w (.view dbName v.name) .reduce
      (w.readView dbName sess v p fun es => reduceGrouped es key)

/-- `reduce_by_name`, database.rs:1537-1560. -/
def World.reduceAll (s : Schema) (dbName : String) (sess : Sess) (w : World F) (n : VName)
    (key : Option (QueryKey Bytes)) (p : Policy) : Except Err Bytes × World F :=
  match w.reduceGroups s dbName sess n key p with
  | (.error e, w) => (.error e, w)
  | (.ok [g], w) => (.ok g.2, w)
  | (.ok gs, w) =>
    match findView s n with
    | none => (.error .viewNotFound, w)
    | some v =>
      match v.reduce gs true with
      | .ok b => (.ok b, w)
      | _ => (.error (.store .view), w)

/-- `delete_docs_by_name`, database.rs:1605-1625: no permission of the view is checked. -/
def World.deleteDocs (s : Schema) (dbName : String) (sess : Sess) (w : World F) (n : VName)
    (key : Option (QueryKey Bytes)) (p : Policy) (tid : Nat) : Except Err Nat × World F :=
  match findView s n with
  | none => (.error .viewNotFound, w)
  | some v =>
    match w.readView dbName sess v p fun es => deleteOps v.name.collection es key with
    | (.error e, w) => (.error e, w)
    | (.ok ops, w) =>
      match w.apply s dbName sess tid ops with
      | (.error e, w) => (.error e, w)
      | (.ok rs, w) => (.ok rs.length, w)

/-- Turn the result of an operation into a response. -/
def respond {α : Type} (f : α → Response F) (r : Except Err α × World F) :
    Except Err (Response F) × World F :=
  match r with
  | (.ok a, w) => (.ok (f a), w)
  | (.error e, w) => (.error e, w)

/-- The calls of the API on the handle of a session. Lines of database.rs unless said otherwise. -/
def perform [KV.FloatOps F] (s : Schema) (dbName : String) (sess : Sess) (w : World F) :
    Request F → Except Err (Response F) × World F
  | .apply ops tid => respond .results (w.apply s dbName sess tid ops)              -- 1128-1193
  | .get c id => guarded sess w (.document dbName c id) .get                         -- 1204-1224
      (.ok (.document (getDoc w.db c id)), w)
  | .getMultiple c ids => respond .documents (World.getMany dbName sess w c ids)
  | .list c ids order limit => guarded sess w (.collection dbName c) .list          -- 1235-1287
      (.ok (.documents (listDocs w.db.trees c ids order limit)), w)
  | .listHeaders c ids order limit => guarded sess w (.collection dbName c) .listHeaders  -- 1298-1350
      (.ok (.headers (listHeaders w.db.trees c ids order limit)), w)
  | .count c ids => guarded sess w (.collection dbName c) .count                    -- 1361-1381
      (.ok (.number (countDocs w.db.trees c ids)), w)
  | .query n key order limit p => respond .mapped (w.query s dbName sess n key order limit p)
  | .queryWithDocs n key order limit p =>
    respond (fun r => .mappedDocs r.1 r.2) (w.queryDocs s dbName sess n key order limit p)
  | .reduce n key p => respond .reduced (w.reduceAll s dbName sess n key p)
  | .reduceGrouped n key p => respond .groups (w.reduceGroups s dbName sess n key p)
  | .deleteDocs n key p tid => respond .number (w.deleteDocs s dbName sess n key p tid)
  | .listExecuted start limit => guarded sess w (.database dbName) .listExecuted     -- 1010-1063
      (.ok (.executed (listExecuted w.db.log start limit)), w)
  | .lastTransactionId => guarded sess w (.database dbName) .getLastId               -- 1073-1079
      (.ok (.lastId (w.db.log.getLast?.map (·.1))), w)
  | .compact => guarded sess w (.database dbName) .compact                           -- 1088-1098
      (.ok .unit, { w with compacted := w.compacted ++ [.database dbName] })
  | .compactCollection c => guarded sess w (.collection dbName c) .compact           -- 1433-1447
      (.ok .unit, { w with compacted := w.compacted ++ [.collection dbName c] })
  | .compactKeyValue => guarded sess w (.keyValue dbName) .compact                   -- 1107-1117
      (.ok .unit, { w with compacted := w.compacted ++ [.keyValue dbName] })
  | .keyOp ns key command clock =>                                                   -- keyvalue.rs:59-65
    guarded sess w (.key dbName ns key) .keyOperation
      (match w.kv.perform clock ⟨fullKey ns key, command⟩ with
      | (.ok o, kv) => (.ok (.output o), { w with kv := kv })
      | (.error e, kv) => (.error (.key e), { w with kv := kv }))
  | .createSubscriber => guarded sess w (.database dbName) .createSubscriber         -- pubsub.rs:14-23
      (.ok (.subscriber (w.subscribers + 1)), { w with subscribers := w.subscribers + 1 })
  | .publish topic payload => guarded sess w (.topic dbName topic) .publish          -- pubsub.rs:25-35
      (.ok .unit, { w with published := w.published ++ [(databaseTopic dbName topic, payload)] })
  | .publishAll topics payload =>                                                    -- pubsub.rs:37-56
    if topics.all fun t => sess.allows (.topic dbName t) .publish then
      (.ok .unit, { w with
        published := w.published ++ topics.map fun t => (databaseTopic dbName t, payload) })
    else (.error .permissionDenied, w)
  | .subscribe sub topic => guarded sess w (.topic dbName topic) .subscribeTo        -- pubsub.rs:83-91
      (.ok .unit, { w with relay := (sub, databaseTopic dbName topic) :: w.relay })
  | .unsubscribe sub topic => guarded sess w (.topic dbName topic) .unsubscribeFrom  -- pubsub.rs:93-101
      (.ok .unit, { w with relay := w.relay.filter fun x => x ≠ (sub, databaseTopic dbName topic) })

/-- `AsyncDatabase::last_transaction_id`, local async.rs:611-617: the id is read directly. The server
answers `LastTransactionId` with this (server/src/server/database.rs:112-114). -/
def asyncLastTransactionId (_ : Sess) (w : World F) : Except Err (Response F) × World F :=
  (.ok (.lastId (w.db.log.getLast?.map (·.1))), w)

/-- A queued mapping job runs by itself: tasks/manager.rs worker. -/
def World.background (w : World F) (dbName : String) (v : View) : World F :=
  match owner w.jobs v.name with
  | some sess => (w.mapNow dbName sess v).2
  | none => w

/-! ## Specification -/

/-- The permission documented for one operation of a transaction, core permissions/bonsai.rs:170-212. -/
def documentedOp (dbName : String) (op : Operation) : Resource × Act :=
  match op.command with
  | .insert .. => (.collection dbName op.collection, .insert)
  | .update h _ => (.document dbName op.collection h.id, .update)
  | .overwrite id _ => (.document dbName op.collection id, .overwrite)
  | .delete h => (.document dbName op.collection h.id, .delete)
  | .check id _ => (.document dbName op.collection id, .get)

/-- The permissions the documentation of the actions asks for a call (core
permissions/bonsai.rs:153-278), and of the actions no documentation names, the ones a reader of the
names expects. -/
def documented (dbName : String) : Request F → List (Resource × Act)
  | .apply ops _ => ops.map (documentedOp dbName)
  | .get c id => [(.document dbName c id, .get)]
  | .getMultiple c ids => ids.map fun id => (.document dbName c id, .get)
  | .list c .. => [(.collection dbName c, .list)]
  | .listHeaders c .. => [(.collection dbName c, .listHeaders)]
  | .count c _ => [(.collection dbName c, .count)]
  | .query v .. => [(.view dbName v, .query)]
  | .queryWithDocs v .. => [(.view dbName v, .query)]
  | .reduce v .. => [(.view dbName v, .reduce)]
  | .reduceGrouped v .. => [(.view dbName v, .reduce)]
  | .deleteDocs v .. => [(.view dbName v, .deleteDocs)]
  | .listExecuted .. => [(.database dbName, .listExecuted)]
  | .lastTransactionId => [(.database dbName, .getLastId)]
  | .compact => [(.database dbName, .compact)]
  | .compactCollection c => [(.collection dbName c, .compact)]
  | .compactKeyValue => [(.keyValue dbName, .compact)]
  | .keyOp ns key .. => [(.key dbName ns key, .keyOperation)]
  | .createSubscriber => [(.database dbName, .createSubscriber)]
  | .publish topic _ => [(.topic dbName topic, .publish)]
  | .publishAll topics _ => topics.map fun t => (.topic dbName t, .publish)
  | .subscribe _ topic => [(.topic dbName topic, .subscribeTo)]
  | .unsubscribe _ topic => [(.topic dbName topic, .unsubscribeFrom)]

/-- The view a call names, if any. -/
def Request.view? : Request F → Option VName
  | .query v .. | .queryWithDocs v .. | .reduce v .. | .reduceGrouped v .. | .deleteDocs v .. => some v
  | _ => none

/-- A call that deletes the documents a view finds. -/
def Request.IsDeleteDocs : Request F → Prop
  | .deleteDocs .. => True
  | _ => False

end Bonsai.Access
