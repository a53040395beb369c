import Verif.Access.Model
import Verif.Identity.Model

/-!
# Model of a call through a client

What a client handle sends for a call, what the server makes of it and what the caller gets back:
`crates/bonsaidb-core/src/networking.rs` (the requests and their names),
`crates/bonsaidb-client/src/client.rs`, `client/remote_database.rs`, `client/remote_database/*.rs`
(asynchronous handles) and `client/sync.rs` (blocking handles),
`crates/bonsaidb-server/src/{api,dispatch,config,server}.rs`, `crates/bonsaidb-local/src/async.rs`
(the asynchronous handles the server's handlers use).

Simplified: `pot` is an encoding from which everything is read back (`Codec`); how payloads travel and
are matched with their requests is `Verif/Net`, which session a request runs with is `Verif/Remote`,
what a subscriber of a connection receives is `Verif/Pubsub`.
-/
set_option linter.unusedSimpArgs false

namespace Bonsai.Wire
open Bonsai Bonsai.Names Bonsai.Store Bonsai.Query Bonsai.Access

/-- `Authentication`, core connection.rs:3471-3497. -/
inductive Authentication where
  | token (id now : Nat) (nowHash : Bytes) (algorithm : Nat)
  | tokenChallengeResponse (hash : Bytes)
  | password (user : Ident.Ref) (password : Bytes)

/-! ## The calls -/

/-- A call of a method of `Connection`, `LowLevelConnection`, `KeyValue` or `PubSub` with its
arguments, in the order of the traits (core connection.rs, connection/lowlevel.rs, keyvalue.rs,
pubsub.rs; the asynchronous traits have the same methods). -/
inductive DbCall (F : Type) where
  | listExecutedTransactions (startingId resultLimit : Option Nat)
  | lastTransactionId
  | compact
  | compactKeyValueStore
  | applyTransaction (ops : List Operation)
  | getFromCollection (id : Bytes) (collection : QName)
  | getMultipleFromCollection (ids : List Bytes) (collection : QName)
  | listFromCollection (ids : Range Bytes) (order : Sort') (limit : Option Nat) (collection : QName)
  | listHeadersFromCollection (ids : Range Bytes) (order : Sort') (limit : Option Nat) (collection : QName)
  | countFromCollection (ids : Range Bytes) (collection : QName)
  | compactCollectionByName (collection : QName)
  | queryByName (view : VName) (key : Option (QueryKey Bytes)) (order : Sort') (limit : Option Nat)
      (policy : Access.Policy)
  | queryByNameWithDocs (view : VName) (key : Option (QueryKey Bytes)) (order : Sort')
      (limit : Option Nat) (policy : Access.Policy)
  | reduceByName (view : VName) (key : Option (QueryKey Bytes)) (policy : Access.Policy)
  | reduceGroupedByName (view : VName) (key : Option (QueryKey Bytes)) (policy : Access.Policy)
  | deleteDocsByName (view : VName) (key : Option (QueryKey Bytes)) (policy : Access.Policy)
  | executeKeyOperation (namespace' : Option String) (key : String) (command : KV.Command F)
  | createSubscriber
  | publishBytes (topic payload : Bytes)
  | publishBytesToAll (topics : List Bytes) (payload : Bytes)

/-- A call of a method of `StorageConnection`, core connection.rs. References are what
`Nameable::name` returns. -/
inductive StCall where
  | createDatabaseWithSchema (name : String) (schema : QName) (onlyIfNeeded : Bool)
  | deleteDatabase (name : String)
  | listDatabases
  | listAvailableSchemas
  | createUser (username : String)
  | deleteUser (user : Ident.Ref)
  | setUserPassword (user : Ident.Ref) (password : Bytes)
  | authenticate (authentication : Authentication)
  | assumeIdentity (identity : Ident.IdentityRef)
  | addPermissionGroupToUser (user group : Ident.Ref)
  | removePermissionGroupFromUser (user group : Ident.Ref)
  | addRoleToUser (user role : Ident.Ref)
  | removeRoleFromUser (user role : Ident.Ref)

/-- A call of a subscriber: `Subscriber`, core pubsub.rs, and its `drop`. -/
inductive SubCall where
  | subscribeTo (topic : Bytes)
  | unsubscribeFrom (topic : Bytes)
  | drop

/-! ## The requests, core networking.rs -/

structure CreateDatabase where           -- 32-46; `Database { name, schema }`
  name : String
  schema : QName
  onlyIfNeeded : Bool

structure SetUserPassword where          -- 125-140
  user : Ident.Ref
  password : Bytes

structure AlterGroup where               -- 188-206
  user : Ident.Ref
  group : Ident.Ref
  shouldBeMember : Bool

structure AlterRole where                -- 210-228
  user : Ident.Ref
  role : Ident.Ref
  shouldBeMember : Bool

structure Get where                      -- 232-248
  database : String
  collection : QName
  id : Bytes

structure GetMultiple where              -- 252-268
  database : String
  collection : QName
  ids : List Bytes

structure ListDocs where                 -- 272-292; `ListHeaders(List)`, 296-305
  database : String
  collection : QName
  ids : Range Bytes
  order : Sort'
  limit : Option Nat

structure Count where                    -- 309-325
  database : String
  collection : QName
  ids : Range Bytes

structure Query where                    -- 329-351; `QueryWithDocs(Query)`, 355-364
  database : String
  view : VName
  key : Option (QueryKey Bytes)
  order : Sort'
  limit : Option Nat
  accessPolicy : Access.Policy

structure Reduce where                   -- 368-386; `ReduceGrouped(Reduce)`, 390-399
  database : String
  view : VName
  key : Option (QueryKey Bytes)
  accessPolicy : Access.Policy

structure DeleteDocs where               -- 403-421
  database : String
  view : VName
  key : Option (QueryKey Bytes)
  accessPolicy : Access.Policy

structure ApplyTransaction where         -- 425-439
  database : String
  transaction : List Operation

structure ListExecuted where             -- 443-459
  database : String
  startingId : Option Nat
  resultLimit : Option Nat

structure Publish where                  -- 495-511
  database : String
  topic : Bytes
  payload : Bytes

structure PublishToAll where             -- 515-531
  database : String
  topics : List Bytes
  payload : Bytes

structure SubscribeTo where              -- 535-551; `UnsubscribeFrom`, 575-591
  database : String
  subscriberId : Nat
  topic : Bytes

structure UnregisterSubscriber where     -- 595-609
  database : String
  subscriberId : Nat

structure ExecuteKeyOperation (F : Type) where  -- 613-627; `KeyOperation` has namespace, key and command
  database : String
  namespace' : Option String
  key : String
  command : KV.Command F

structure CompactCollection where        -- 631-645
  database : String
  name : QName

/-- The request types. -/
inductive Api where
  | createDatabase | deleteDatabase | listDatabases | listAvailableSchemas | createUser | deleteUser
  | setUserPassword | authenticate | assumeIdentity | logOutSession | alterGroup | alterRole
  | get | getMultiple | list | listHeaders | count | query | queryWithDocs | reduce | reduceGrouped
  | deleteDocs | applyTransaction | listExecuted | lastTransactionId | createSubscriber | publish
  | publishToAll | subscribeTo | unsubscribeFrom | unregisterSubscriber | executeKeyOperation
  | compactCollection | compactKeyValueStore | compact
  deriving DecidableEq

/-- `Api::name`, the second part of each `ApiName::new("bonsaidb", …)`, core networking.rs. -/
def Api.name : Api → String
  | .createDatabase => "CreateDatabase"
  | .deleteDatabase => "DeleteDatabase"
  | .listDatabases => "ListDatabases"
  | .listAvailableSchemas => "ListAvailableSchemas"
  | .createUser => "CreateUser"
  | .deleteUser => "DeleteUser"
  | .setUserPassword => "SetUserPassword"
  | .authenticate => "Authenticate"
  | .assumeIdentity => "AssumeIdentity"
  | .logOutSession => "LogOutSession"
  | .alterGroup => "AlterUserPermissionGroupMembership"
  | .alterRole => "AlterUserRoleMembership"
  | .get => "Get"
  | .getMultiple => "GetMultiple"
  | .list => "List"
  | .listHeaders => "ListHeaders"
  | .count => "Count"
  | .query => "Query"
  | .queryWithDocs => "QueryWithDocs"
  | .reduce => "Reduce"
  | .reduceGrouped => "ReduceGrouped"
  | .deleteDocs => "DeleteDocs"
  | .applyTransaction => "ApplyTransaction"
  | .listExecuted => "ListExecutedTransactions"
  | .lastTransactionId => "LastTransactionId"
  | .createSubscriber => "CreateSubscriber"
  | .publish => "Publish"
  | .publishToAll => "PublishToAll"
  | .subscribeTo => "SubscribeTo"
  | .unsubscribeFrom => "UnsubscribeFrom"
  | .unregisterSubscriber => "UnregisterSubscriber"
  | .executeKeyOperation => "ExecuteKeyOperation"
  | .compactCollection => "CompactCollection"
  | .compactKeyValueStore => "CompactKeyValueStore"
  | .compact => "Compact"

/-- The type of each request (one-field structures are their field). -/
def Api.Req (F : Type) : Api → Type
  | .createDatabase => CreateDatabase
  | .deleteDatabase => String
  | .listDatabases => Unit
  | .listAvailableSchemas => Unit
  | .createUser => String
  | .deleteUser => Ident.Ref
  | .setUserPassword => SetUserPassword
  | .authenticate => Authentication
  | .assumeIdentity => Ident.IdentityRef
  | .logOutSession => Nat
  | .alterGroup => AlterGroup
  | .alterRole => AlterRole
  | .get => Get
  | .getMultiple => GetMultiple
  | .list => ListDocs
  | .listHeaders => ListDocs
  | .count => Count
  | .query => Query
  | .queryWithDocs => Query
  | .reduce => Reduce
  | .reduceGrouped => Reduce
  | .deleteDocs => DeleteDocs
  | .applyTransaction => ApplyTransaction
  | .listExecuted => ListExecuted
  | .lastTransactionId => String
  | .createSubscriber => String
  | .publish => Publish
  | .publishToAll => PublishToAll
  | .subscribeTo => SubscribeTo
  | .unsubscribeFrom => SubscribeTo
  | .unregisterSubscriber => UnregisterSubscriber
  | .executeKeyOperation => ExecuteKeyOperation F
  | .compactCollection => CompactCollection
  | .compactKeyValueStore => String
  | .compact => String

variable {F : Type}

/-! ## What a handle sends -/

/-- `AsyncRemoteDatabase` named `db`, client/remote_database.rs:62-316, remote_database/keyvalue.rs:6-20,
remote_database/pubsub.rs:11-66. -/
def asyncDatabase (db : String) : DbCall F → (a : Api) × a.Req F
  | .listExecutedTransactions startingId resultLimit => ⟨.listExecuted, ⟨db, startingId, resultLimit⟩⟩
  | .lastTransactionId => ⟨.lastTransactionId, db⟩
  | .compact => ⟨.compact, db⟩
  | .compactKeyValueStore => ⟨.compactKeyValueStore, db⟩
  | .applyTransaction transaction => ⟨.applyTransaction, ⟨db, transaction⟩⟩
  | .getFromCollection id collection => ⟨.get, ⟨db, collection, id⟩⟩
  | .getMultipleFromCollection ids collection => ⟨.getMultiple, ⟨db, collection, ids⟩⟩
  | .listFromCollection ids order limit collection => ⟨.list, ⟨db, collection, ids, order, limit⟩⟩
  | .listHeadersFromCollection ids order limit collection =>
    ⟨.listHeaders, ⟨db, collection, ids, order, limit⟩⟩
  | .countFromCollection ids collection => ⟨.count, ⟨db, collection, ids⟩⟩
  | .compactCollectionByName collection => ⟨.compactCollection, ⟨db, collection⟩⟩
  | .queryByName view key order limit accessPolicy => ⟨.query, ⟨db, view, key, order, limit, accessPolicy⟩⟩
  | .queryByNameWithDocs view key order limit accessPolicy =>
    ⟨.queryWithDocs, ⟨db, view, key, order, limit, accessPolicy⟩⟩
  | .reduceByName view key accessPolicy => ⟨.reduce, ⟨db, view, key, accessPolicy⟩⟩
  | .reduceGroupedByName view key accessPolicy => ⟨.reduceGrouped, ⟨db, view, key, accessPolicy⟩⟩
  | .deleteDocsByName view key accessPolicy => ⟨.deleteDocs, ⟨db, view, key, accessPolicy⟩⟩
  | .executeKeyOperation ns key command => ⟨.executeKeyOperation, ⟨db, ns, key, command⟩⟩
  | .createSubscriber => ⟨.createSubscriber, db⟩
  | .publishBytes topic payload => ⟨.publish, ⟨db, topic, payload⟩⟩
  | .publishBytesToAll topics payload => ⟨.publishToAll, ⟨db, topics, payload⟩⟩

/-- `BlockingRemoteDatabase` named `db`, client/sync.rs:309-623, 650-663. -/
def blockingDatabase (db : String) : DbCall F → (a : Api) × a.Req F
  | .listExecutedTransactions startingId resultLimit => ⟨.listExecuted, ⟨db, startingId, resultLimit⟩⟩
  | .lastTransactionId => ⟨.lastTransactionId, db⟩
  | .compact => ⟨.compact, db⟩
  | .compactKeyValueStore => ⟨.compactKeyValueStore, db⟩
  | .applyTransaction transaction => ⟨.applyTransaction, ⟨db, transaction⟩⟩
  | .getFromCollection id collection => ⟨.get, ⟨db, collection, id⟩⟩
  | .getMultipleFromCollection ids collection => ⟨.getMultiple, ⟨db, collection, ids⟩⟩
  | .listFromCollection ids order limit collection => ⟨.list, ⟨db, collection, ids, order, limit⟩⟩
  | .listHeadersFromCollection ids order limit collection =>
    ⟨.listHeaders, ⟨db, collection, ids, order, limit⟩⟩
  | .countFromCollection ids collection => ⟨.count, ⟨db, collection, ids⟩⟩
  | .compactCollectionByName collection => ⟨.compactCollection, ⟨db, collection⟩⟩
  | .queryByName view key order limit accessPolicy => ⟨.query, ⟨db, view, key, order, limit, accessPolicy⟩⟩
  | .queryByNameWithDocs view key order limit accessPolicy =>
    ⟨.queryWithDocs, ⟨db, view, key, order, limit, accessPolicy⟩⟩
  | .reduceByName view key accessPolicy => ⟨.reduce, ⟨db, view, key, accessPolicy⟩⟩
  | .reduceGroupedByName view key accessPolicy => ⟨.reduceGrouped, ⟨db, view, key, accessPolicy⟩⟩
  | .deleteDocsByName view key accessPolicy => ⟨.deleteDocs, ⟨db, view, key, accessPolicy⟩⟩
  | .executeKeyOperation ns key command => ⟨.executeKeyOperation, ⟨db, ns, key, command⟩⟩
  | .createSubscriber => ⟨.createSubscriber, db⟩
  | .publishBytes topic payload => ⟨.publish, ⟨db, topic, payload⟩⟩
  | .publishBytesToAll topics payload => ⟨.publishToAll, ⟨db, topics, payload⟩⟩

/-- `AsyncClient` as a storage, client.rs:658-848. -/
def asyncStorage : StCall → (a : Api) × a.Req F
  | .createDatabaseWithSchema name schema onlyIfNeeded => ⟨.createDatabase, ⟨name, schema, onlyIfNeeded⟩⟩
  | .deleteDatabase name => ⟨.deleteDatabase, name⟩
  | .listDatabases => ⟨.listDatabases, ()⟩
  | .listAvailableSchemas => ⟨.listAvailableSchemas, ()⟩
  | .createUser username => ⟨.createUser, username⟩
  | .deleteUser user => ⟨.deleteUser, user⟩
  | .setUserPassword user password => ⟨.setUserPassword, ⟨user, password⟩⟩
  | .authenticate authentication => ⟨.authenticate, authentication⟩
  | .assumeIdentity identity => ⟨.assumeIdentity, identity⟩
  | .addPermissionGroupToUser user group => ⟨.alterGroup, ⟨user, group, true⟩⟩
  | .removePermissionGroupFromUser user group => ⟨.alterGroup, ⟨user, group, false⟩⟩
  | .addRoleToUser user role => ⟨.alterRole, ⟨user, role, true⟩⟩
  | .removeRoleFromUser user role => ⟨.alterRole, ⟨user, role, false⟩⟩

/-- `BlockingClient` as a storage, client/sync.rs:117-303. -/
def blockingStorage : StCall → (a : Api) × a.Req F
  | .createDatabaseWithSchema name schema onlyIfNeeded => ⟨.createDatabase, ⟨name, schema, onlyIfNeeded⟩⟩
  | .deleteDatabase name => ⟨.deleteDatabase, name⟩
  | .listDatabases => ⟨.listDatabases, ()⟩
  | .listAvailableSchemas => ⟨.listAvailableSchemas, ()⟩
  | .createUser username => ⟨.createUser, username⟩
  | .deleteUser user => ⟨.deleteUser, user⟩
  | .setUserPassword user password => ⟨.setUserPassword, ⟨user, password⟩⟩
  | .authenticate authentication => ⟨.authenticate, authentication⟩
  | .assumeIdentity identity => ⟨.assumeIdentity, identity⟩
  | .addPermissionGroupToUser user group => ⟨.alterGroup, ⟨user, group, true⟩⟩
  | .removePermissionGroupFromUser user group => ⟨.alterGroup, ⟨user, group, false⟩⟩
  | .addRoleToUser user role => ⟨.alterRole, ⟨user, role, true⟩⟩
  | .removeRoleFromUser user role => ⟨.alterRole, ⟨user, role, false⟩⟩

/-- The subscriber `id` of the database `db`, remote_database/pubsub.rs:81-105, 107-142 and
client/sync.rs:630-648; `unregister_subscriber`, client.rs:595-616. -/
def subscriber (db : String) (id : Nat) : SubCall → (a : Api) × a.Req F
  | .subscribeTo topic => ⟨.subscribeTo, ⟨db, id, topic⟩⟩
  | .unsubscribeFrom topic => ⟨.unsubscribeFrom, ⟨db, id, topic⟩⟩
  | .drop => ⟨.unregisterSubscriber, ⟨db, id⟩⟩

/-! ## What the server does with a request -/

/-- What a handler calls: a method of the storage `session.as_client`, of the database of that name of
`session.as_client` (`database_without_schema(name).await?`), or of the connection. -/
inductive Invocation (F : Type) where
  | storage (c : StCall)
  | database (name : String) (c : DbCall F)
  | subscribeById (id : Nat) (topic : Bytes)
  | unsubscribeById (id : Nat) (topic : Bytes)
  | unregisterById (id : Nat)
  | logOut (session : Nat)

/-- The handlers of `ServerDispatcher`, server dispatch.rs:88-700. -/
def handle : (a : Api) → a.Req F → Invocation F
  | .createDatabase, r => .storage (.createDatabaseWithSchema (CreateDatabase.name r)
      (CreateDatabase.schema r) (CreateDatabase.onlyIfNeeded r))                       -- 88-104
  | .deleteDatabase, name => .storage (.deleteDatabase name)                           -- 107-115
  | .listDatabases, _ => .storage .listDatabases                                       -- 118-129
  | .listAvailableSchemas, _ => .storage .listAvailableSchemas                         -- 132-143
  | .createUser, username => .storage (.createUser username)                           -- 146-157
  | .deleteUser, user => .storage (.deleteUser user)                                   -- 160-171
  | .setUserPassword, r =>                                                             -- 175-186
    .storage (.setUserPassword (SetUserPassword.user r) (SetUserPassword.password r))
  | .authenticate, authentication => .storage (.authenticate authentication)           -- 190-214
  | .assumeIdentity, identity => .storage (.assumeIdentity identity)                   -- 217-238
  | .logOutSession, id => .logOut id                                                   -- 241-259
  | .alterGroup, r =>                                                                  -- 262-281
    if AlterGroup.shouldBeMember r then
      .storage (.addPermissionGroupToUser (AlterGroup.user r) (AlterGroup.group r))
    else .storage (.removePermissionGroupFromUser (AlterGroup.user r) (AlterGroup.group r))
  | .alterRole, r =>                                                                   -- 284-303
    if AlterRole.shouldBeMember r then .storage (.addRoleToUser (AlterRole.user r) (AlterRole.role r))
    else .storage (.removeRoleFromUser (AlterRole.user r) (AlterRole.role r))
  | .get, r => .database (Get.database r) (.getFromCollection (Get.id r) (Get.collection r))  -- 306-317
  | .getMultiple, r => .database (GetMultiple.database r)                              -- 320-334
      (.getMultipleFromCollection (GetMultiple.ids r) (GetMultiple.collection r))
  | .list, r => .database (ListDocs.database r) (.listFromCollection (ListDocs.ids r)  -- 337-354
      (ListDocs.order r) (ListDocs.limit r) (ListDocs.collection r))
  | .listHeaders, r => .database (ListDocs.database r) (.listHeadersFromCollection     -- 357-377
      (ListDocs.ids r) (ListDocs.order r) (ListDocs.limit r) (ListDocs.collection r))
  | .count, r => .database (Count.database r) (.countFromCollection (Count.ids r) (Count.collection r))  -- 380-391
  | .query, r => .database (Query.database r) (.queryByName (Query.view r) (Query.key r)  -- 394-411
      (Query.order r) (Query.limit r) (Query.accessPolicy r))
  | .queryWithDocs, r => .database (Query.database r) (.queryByNameWithDocs (Query.view r)  -- 414-434
      (Query.key r) (Query.order r) (Query.limit r) (Query.accessPolicy r))
  | .reduce, r => .database (Reduce.database r) (.reduceByName (Reduce.view r) (Reduce.key r)  -- 437-449
      (Reduce.accessPolicy r))
  | .reduceGrouped, r => .database (Reduce.database r) (.reduceGroupedByName (Reduce.view r)  -- 452-466
      (Reduce.key r) (Reduce.accessPolicy r))
  | .applyTransaction, r =>                                                            -- 469-483
    .database (ApplyTransaction.database r) (.applyTransaction (ApplyTransaction.transaction r))
  | .deleteDocs, r => .database (DeleteDocs.database r) (.deleteDocsByName (DeleteDocs.view r)  -- 486-500
      (DeleteDocs.key r) (DeleteDocs.accessPolicy r))
  | .listExecuted, r => .database (ListExecuted.database r)                            -- 503-517
      (.listExecutedTransactions (ListExecuted.startingId r) (ListExecuted.resultLimit r))
  | .lastTransactionId, db => .database db .lastTransactionId                          -- 520-534
  | .createSubscriber, db => .database db .createSubscriber                            -- 537-556
  | .publish, r => .database (Publish.database r) (.publishBytes (Publish.topic r) (Publish.payload r))  -- 559-570
  | .publishToAll, r => .database (PublishToAll.database r)                            -- 573-590
      (.publishBytesToAll (PublishToAll.topics r) (PublishToAll.payload r))
  | .subscribeTo, r => .subscribeById (SubscribeTo.subscriberId r) (SubscribeTo.topic r)        -- 593-607
  | .unsubscribeFrom, r => .unsubscribeById (SubscribeTo.subscriberId r) (SubscribeTo.topic r)  -- 610-624
  | .unregisterSubscriber, r => .unregisterById (UnregisterSubscriber.subscriberId r)  -- 627-640
  | .executeKeyOperation, r => .database (ExecuteKeyOperation.database r) (.executeKeyOperation  -- 643-657
      (ExecuteKeyOperation.namespace' r) (ExecuteKeyOperation.key r) (ExecuteKeyOperation.command r))
  | .compactCollection, r => .database (CompactCollection.database r)                  -- 660-674
      (.compactCollectionByName (CompactCollection.name r))
  | .compactKeyValueStore, db => .database db .compactKeyValueStore                    -- 677-691
  | .compact, db => .database db .compact                                              -- 693-700

/-- The features a server or client is compiled with. -/
structure Features where
  passwords : Bool
  tokens : Bool

/-- `register_api_handlers`, server dispatch.rs:24-69. -/
def builtin (f : Features) : List Api :=
  [.alterGroup, .alterRole, .applyTransaction, .assumeIdentity, .compact, .compactCollection,
    .compactKeyValueStore, .count, .createDatabase, .createSubscriber, .createUser, .deleteDatabase,
    .deleteDocs, .deleteUser, .executeKeyOperation, .get, .getMultiple, .lastTransactionId, .list,
    .listHeaders, .listAvailableSchemas, .listDatabases, .listExecuted, .logOutSession, .publish,
    .publishToAll, .query, .queryWithDocs, .reduce, .reduceGrouped, .subscribeTo, .unregisterSubscriber,
    .unsubscribeFrom] ++
  (if f.passwords then [.authenticate, .setUserPassword] else [])

/-- `ApiName`: the authority and the name, core api.rs. -/
abbrev ApiName := String × String

/-- The full name of a request of BonsaiDb. -/
def Api.apiName (a : Api) : ApiName := ("bonsaidb", a.name)

/-- The handlers of a server: `custom_apis`, a `HashMap` filled by `register_custom_api`, server
config.rs:112-124: a later registration replaces an earlier one. `none` is a handler of the backend.
`B::configure` runs before `register_api_handlers`, server.rs:127. -/
def handlers (f : Features) (custom : List ApiName) : List (ApiName × Option Api) :=
  custom.map (fun n => (n, none)) ++ (builtin f).map fun a => (a.apiName, some a)

/-- `custom_api_dispatcher`, server.rs:231-234: the handler registered last. -/
def findHandler (hs : List (ApiName × Option Api)) (n : ApiName) : Option (Option Api) :=
  (hs.reverse.find? fun p => p.1 = n).map (·.2)

/-- The errors a caller can see. -/
inductive Err where
  | database (e : Access.Err)
  | databaseNotFound (name : String)
  | apiNotFound (n : ApiName)
  | malformed
  | timeout
  | disconnected
  deriving DecidableEq

/-- `pot`: how requests and results (`Result<Response, Error>`) are written, and read as the type an
`Api` asks for. -/
structure Codec (F : Type) where
  request : (a : Api) → a.Req F → Bytes
  readRequest : (a : Api) → Bytes → Option (a.Req F)
  result : Except Err (Response F) → Bytes
  readResult : Api → Bytes → Option (Except Err (Response F))

/-- The values a request is answered with: `Api::Response`, core networking.rs. -/
def Api.Answers (a : Api) : Response F → Prop
  | .unit => a = .compact ∨ a = .compactKeyValueStore ∨ a = .compactCollection ∨ a = .publish ∨
      a = .publishToAll
  | .results _ => a = .applyTransaction
  | .document _ => a = .get
  | .documents _ => a = .getMultiple ∨ a = .list
  | .headers _ => a = .listHeaders
  | .number _ => a = .count ∨ a = .deleteDocs
  | .mapped _ => a = .query
  | .mappedDocs _ _ => a = .queryWithDocs
  | .reduced _ => a = .reduce
  | .groups _ => a = .reduceGrouped
  | .executed _ => a = .listExecuted
  | .lastId _ => a = .lastTransactionId
  | .output _ => a = .executeKeyOperation
  | .subscriber _ => a = .createSubscriber

/-- Everything written is read back. -/
structure Codec.Lawful (C : Codec F) : Prop where
  request : ∀ a r, C.readRequest a (C.request a r) = some r
  result : ∀ a v, a.Answers v → C.readResult a (C.result (.ok v)) = some (.ok v)

/-- `Payload`, core networking.rs:18-29, on its way to the server. -/
structure Payload where
  sessionId : Option Nat
  name : ApiName
  value : Bytes

/-- `send_api_request` and `send_blocking_api_request`, client.rs:488-505, 552-575: what is sent. -/
def send (C : Codec F) (sessionId : Option Nat) (q : (a : Api) × a.Req F) : Payload :=
  ⟨sessionId, q.1.apiName, C.request q.1 q.2⟩

/-- `dispatch_api_request`, server dispatch.rs:74-85, and `AnyWrapper::handle`, server api.rs:60-69, up to
the handler's call. `none`: a handler of the backend. -/
def serve (C : Codec F) (hs : List (ApiName × Option Api)) (p : Payload) :
    Except Err (Option (Invocation F)) :=
  match findHandler hs p.name with
  | none => .error (.apiNotFound p.name)
  | some none => .ok none
  | some (some a) =>
    match C.readRequest a p.value with
    | none => .error .malformed
    | some r => .ok (some (handle a r))

/-- `ConnectedClient::session` or the default, server.rs:661-663. -/
def lookup (sessions : List (Nat × Sess)) (default : Sess) (sid : Option Nat) : Sess :=
  match sid with
  | none => default
  | some i =>
    match sessions.find? fun p => p.1 = i with
    | some p => p.2
    | none => default

/-! ## The calls on the databases -/

/-- What the surroundings decide when a call is carried out: the id nebari gives a transaction and the
clock. -/
structure Env where
  tid : Nat
  clock : KV.Clock

/-- The operation of `bonsaidb_local::Database` a call is (`Verif/Access/Model.lean`). -/
def DbCall.request (env : Env) : DbCall F → Request F
  | .listExecutedTransactions s l => .listExecuted s l
  | .lastTransactionId => .lastTransactionId
  | .compact => .compact
  | .compactKeyValueStore => .compactKeyValue
  | .applyTransaction ops => .apply ops env.tid
  | .getFromCollection id c => .get c id
  | .getMultipleFromCollection ids c => .getMultiple c ids
  | .listFromCollection ids o l c => .list c ids o l
  | .listHeadersFromCollection ids o l c => .listHeaders c ids o l
  | .countFromCollection ids c => .count c ids
  | .compactCollectionByName c => .compactCollection c
  | .queryByName v k o l p => .query v k o l p
  | .queryByNameWithDocs v k o l p => .queryWithDocs v k o l p
  | .reduceByName v k p => .reduce v k p
  | .reduceGroupedByName v k p => .reduceGrouped v k p
  | .deleteDocsByName v k p => .deleteDocs v k p env.tid
  | .executeKeyOperation ns k c => .keyOp ns k c env.clock
  | .createSubscriber => .createSubscriber
  | .publishBytes t p => .publish t p
  | .publishBytesToAll ts p => .publishAll ts p

/-- The databases of a storage: the schema and the state of each. -/
abbrev Host (F : Type) := String → Option (Schema × World F)

/-- The host with another state of one database. -/
def Host.put (h : Host F) (name : String) (s : Schema) (w : World F) : Host F :=
  fun n => if n = name then some (s, w) else h n

/-- A call of `AsyncDatabase`, local async.rs:585-910: `spawn_blocking` of the same call of `Database`, but
for the last transaction id (611-617). -/
def asyncCall [KV.FloatOps F] (s : Schema) (db : String) (sess : Sess) (w : World F) (env : Env) :
    DbCall F → Except Access.Err (Response F) × World F
  | .lastTransactionId => asyncLastTransactionId sess w
  | c => perform s db sess w (c.request env)

/-- Turn the outcome of a call on one database into one on the host. -/
def Host.after (h : Host F) (name : String) (s : Schema) (r : Except Access.Err (Response F) × World F) :
    Except Err (Response F) × Host F :=
  (match r.1 with
   | .ok v => .ok v
   | .error e => .error (.database e), h.put name s r.2)

/-- A handler's call of a database: `database_without_schema(name).await?` (storage.rs:684-722: the
database must exist, whatever its schema) and the call. -/
def Host.invoke [KV.FloatOps F] (h : Host F) (name : String) (sess : Sess) (env : Env) (c : DbCall F) :
    Except Err (Response F) × Host F :=
  match h name with
  | none => (.error (.databaseNotFound name), h)
  | some (s, w) => h.after name s (asyncCall s name sess w env c)

/-- The answer of the server, server api.rs:62-68 and server.rs:150-158: an error is the payload's value, a
result is written with `pot`. -/
def answer (C : Codec F) (r : Except Err (Response F)) : Except Err Bytes :=
  match r with
  | .ok v => .ok (C.result (.ok v))
  | .error e => .error e

/-- The end of `send_api_request`, client.rs:552-575, with `From<ApiError<_>> for Error`, client
error.rs:77-84, 146-153: what the caller gets. -/
def receive (C : Codec F) (a : Api) (value : Except Err Bytes) : Except Err (Response F) :=
  match value with
  | .error e => .error e
  | .ok b =>
    match C.readResult a b with
    | none => .error .malformed
    | some r => r

/-- Asynchronous or blocking. -/
inductive Kind where
  | async
  | blocking

/-- What a handle of the database `db` sends. -/
def Kind.database (k : Kind) (db : String) (c : DbCall F) : (a : Api) × a.Req F :=
  match k with
  | .async => asyncDatabase db c
  | .blocking => blockingDatabase db c

/-- What a client sends for a call of the storage. -/
def Kind.storage (k : Kind) (c : StCall) : (a : Api) × a.Req F :=
  match k with
  | .async => asyncStorage c
  | .blocking => blockingStorage c

/-- What a server is: the features it was compiled with and the handlers of its backend. -/
structure Config where
  features : Features
  custom : List ApiName

/-- The server working on a payload that calls a database: the session, the handler, its call and the
answer, server.rs:134-160. -/
def Host.process [KV.FloatOps F] (C : Codec F) (cfg : Config) (sessions : List (Nat × Sess)) (default : Sess)
    (h : Host F) (env : Env) (p : Payload) : Except Err Bytes × Host F :=
  match serve C (handlers cfg.features cfg.custom) p with
  | .ok (some (.database name c)) =>
    let r := h.invoke name (lookup sessions default p.sessionId) env c
    (answer C r.1, r.2)
  | .error e => (.error e, h)
  | _ => (.error .malformed, h)

/-- A call through a client's handle of the database `db`, and what becomes of it: the caller may be
answered, or the connection may be lost or the time be up before or after the server has worked on the
request (client.rs:507-550; `Verif/Net` has the details). -/
inductive RemoteCall [KV.FloatOps F] (C : Codec F) (cfg : Config) (sessions : List (Nat × Sess))
    (default : Sess) (k : Kind) (sid : Option Nat) (db : String) (env : Env) (c : DbCall F) (h : Host F) :
    Except Err (Response F) → Host F → Prop
  | answered :
      RemoteCall C cfg sessions default k sid db env c h
        (receive C (k.database db c).1
          (h.process C cfg sessions default env (send C sid (k.database db c))).1)
        (h.process C cfg sessions default env (send C sid (k.database db c))).2
  | lostBefore (e : Err) (he : e = .timeout ∨ e = .disconnected) :
      RemoteCall C cfg sessions default k sid db env c h (.error e) h
  | lostAfter (e : Err) (he : e = .timeout ∨ e = .disconnected) :
      RemoteCall C cfg sessions default k sid db env c h (.error e)
        (h.process C cfg sessions default env (send C sid (k.database db c))).2

/-! ## Specification -/

/-- The same call on a handle of the database in the server's own process, with this session. -/
def localCall [KV.FloatOps F] (h : Host F) (db : String) (sess : Sess) (env : Env) (c : DbCall F) :
    Except Err (Response F) × Host F :=
  match h db with
  | none => (.error (.databaseNotFound db), h)
  | some (s, w) => h.after db s (perform s db sess w (c.request env))

end Bonsai.Wire
