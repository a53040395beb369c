import Verif.Names.Resources

/-!
# Users, roles, permission groups and sessions (model)

`crates/bonsaidb-local/src/storage.rs`, `storage/token_authentication.rs` and
`crates/bonsaidb-core/src/admin/{user,role,group,authentication_token}.rs`.

The external crate `actionable` is modelled by its documented behaviour: permissions are a list of
statements, merging concatenates, an action is allowed iff some statement allows it.  A statement is
identified with the set of requests it allows.
-/
set_option linter.unusedSimpArgs false
set_option linter.unusedSectionVars false

namespace Bonsai.Ident
open Bonsai Bonsai.Names

/-- `u64` document ids of the admin collections. -/
abbrev Id := BitVec 64

/-- The actions checked by the modelled functions (core/src/permissions/bonsai.rs `ServerAction`);
`other` stands for the rest. -/
inductive Action where
  | createUser | deleteUser | setPassword | authenticatePassword | authenticateToken
  | modifyUserPermissionGroups | modifyUserRoles | assumeIdentity
  | createDatabase | deleteDatabase | listDatabases | listAvailableSchemas
  | other (n : Nat)
  deriving DecidableEq

/-- `actionable::Statement`: which actions on which resource names it allows. -/
abbrev Statement := List Bytes → Action → Bool

/-- `actionable::Permissions`. -/
abbrev Permissions := List Statement

/-- `Permissions::allowed_to` (external). -/
def Permissions.allows (p : Permissions) (r : Resource) (a : Action) : Bool :=
  p.any fun s => s (resourceName r) a

/-- `Permissions::merged` (external). -/
def Permissions.merged (ps : List Permissions) : Permissions := ps.flatten

/-- `PermissionGroup`, core/src/admin/group.rs:9-18. -/
structure Group where
  name : String
  statements : Permissions

/-- `Role`, core/src/admin/role.rs:11-20. -/
structure Role where
  name : String
  groups : List Id
  deriving DecidableEq

/-- `User`, core/src/admin/user.rs:14-33. -/
structure User where
  username : String
  groups : List Id
  roles : List Id
  argonHash : Option Bytes
  deriving DecidableEq

/-- A stored document: its revision number and contents.  (The revision also has the SHA-256 of the
contents; comparing revisions below compares the contents, i.e. collisions are excluded.) -/
structure Doc (α : Type) where
  rev : Nat
  contents : α

/-- A collection of the admin database. -/
abbrev Coll (α : Type) := List (Id × Doc α)

/-- `get`: the document with an id (C36). -/
def Coll.get {α : Type} (c : Coll α) (id : Id) : Option (Doc α) := (c.find? fun p => p.1 == id).map (·.2)

/-- The contents of the documents with the given ids that exist, `get_multiple` (C36). -/
def Coll.getMany {α : Type} (c : Coll α) (ids : List Id) : List α :=
  (c.filter fun p => ids.contains p.1).map fun p => p.2.contents

/-- The id of the document with a name: the first mapping of the unique by-name view (C30, C34). -/
def Coll.named {α : Type} (nameOf : α → String) (c : Coll α) (n : String) : Option Id :=
  (c.find? fun p => nameOf p.2.contents == n).map (·.1)

/-- Replace a document. -/
def Coll.put {α : Type} (c : Coll α) (id : Id) (d : Doc α) : Coll α :=
  c.map fun p => if p.1 = id then (id, d) else p

/-- Remove a document. -/
def Coll.del {α : Type} (c : Coll α) (id : Id) : Coll α := c.filter fun p => p.1 ≠ id

/-- The admin database. -/
structure Adm where
  users : Coll User
  roles : Coll Role
  groups : Coll Group

/-- `NamedReference`, core/src/schema/collection.rs:1521-1528. -/
inductive Ref where
  | name (n : String)
  /-- a document id: `u64` big endian, or not decodable -/
  | id (b : Bytes)
  | key (k : Id)

inductive Err where
  | userNotFound | invalidCredentials | permissionDenied | conflict | documentNotFound | badId
  | uniqueKeyViolation | time
  deriving DecidableEq

/-- `NamedReference::id`, core/src/schema/collection.rs:1660-1676. -/
def Ref.resolve {α : Type} (r : Ref) (nameOf : α → String) (c : Coll α) : Except Err (Option Id) :=
  match r with
  | .name n => .ok (c.named nameOf n)
  | .id b => if b.length = 8 then .ok (some (BitVec.ofNat 64 (fromBE b))) else .error .badId
  | .key k => .ok (some k)

/-- `NamedCollection::load`, core/src/schema/collection.rs:1355-1367: the document a reference denotes. -/
def Ref.load {α : Type} (r : Ref) (nameOf : α → String) (c : Coll α) :
    Except Err (Option (Id × Doc α)) :=
  match r.resolve nameOf c with
  | .error e => .error e
  | .ok none => .ok none
  | .ok (some k) => .ok ((c.get k).map fun d => (k, d))

/-! ## Memberships -/

/-- The four calls of storage.rs:1103-1215 (unrestricted) and 1398-1478 (checked). -/
inductive UserOp where
  | addGroup | removeGroup | addRole | removeRole
  deriving DecidableEq

/-- The collection in which the group or role reference is resolved: the type parameter of
`update_user_with_named_id`, storage.rs:726-753, called at 1152, 1175, 1198, 1214 (1403, 1430, 1457, 1477): adding a role
resolves it among the *permission groups*. -/
def UserOp.resolveIn (op : UserOp) (adm : Adm) (r : Ref) : Except Err (Option Id) :=
  match op with
  | .addGroup => r.resolve Group.name adm.groups
  | .removeGroup => r.resolve Group.name adm.groups
  | .addRole => r.resolve Group.name adm.groups
  | .removeRole => r.resolve Role.name adm.roles

/-- `add_…_inner` and `remove_…_inner`, storage.rs:875-910: the new user and whether it changed. -/
def UserOp.apply (op : UserOp) (x : Id) (u : User) : User × Bool :=
  match op with
  | .addGroup => if u.groups.contains x then (u, false) else ({ u with groups := u.groups ++ [x] }, true)
  | .removeGroup =>
    let l := u.groups.filter fun i => i ≠ x
    ({ u with groups := l }, u.groups.length != l.length)
  | .addRole => if u.roles.contains x then (u, false) else ({ u with roles := u.roles ++ [x] }, true)
  | .removeRole =>
    let l := u.roles.filter fun i => i ≠ x
    ({ u with roles := l }, u.roles.length != l.length)

/-- The action checked, storage.rs:1413, 1437, 1459, 1475. -/
def UserOp.action : UserOp → Action
  | .addGroup | .removeGroup => .modifyUserPermissionGroups
  | .addRole | .removeRole => .modifyUserRoles

/-- `update_user_with_named_id` up to the callback, storage.rs:746-757: the loaded user and the
resolved id. -/
def loadFor (adm : Adm) (op : UserOp) (user other : Ref) : Except Err (Id × Doc User × Id) :=
  match user.load User.username adm.users with
  | .error e => .error e
  | .ok u =>
    match op.resolveIn adm other with
    | .error e => .error e
    | .ok o =>
      match u, o with
      | some (uid, d), some x => .ok (uid, d, x)
      | _, _ => .error .userNotFound

/-- `user.update(&admin)`, storage.rs:759: the document is replaced if it still has the revision that was
loaded (C24), its revision number grows. -/
def updateUser (adm : Adm) (uid : Id) (loaded : Doc User) (u : User) : Except Err Adm :=
  match adm.users.get uid with
  | none => .error .documentNotFound
  | some d =>
    if d.rev = loaded.rev ∧ d.contents = loaded.contents then
      .ok { adm with users := adm.users.put uid ⟨d.rev + 1, u⟩ }
    else .error .conflict

/-- `create_user`, storage.rs:1076-1083: a new id; usernames are unique. -/
def createUser (adm : Adm) (uid : Id) (name : String) : Except Err Adm :=
  if (adm.users.named User.username name).isSome then .error .uniqueKeyViolation
  else if (adm.users.get uid).isSome then .error .conflict
  else .ok { adm with users := adm.users ++ [(uid, ⟨0, ⟨name, [], [], none⟩⟩)] }

/-! ## Sessions -/

/-- `Identity`, core/src/connection.rs:3762-3777. -/
inductive Identity where
  | user (id : Id) (username : String)
  | role (id : Id) (name : String)
  deriving DecidableEq

/-- `SessionAuthentication`, core/src/connection.rs (3640 region). -/
inductive Auth where
  | none
  | identity (i : Identity)
  | challenge (token : Id) (nonce : Bytes) (timestamp : Nat)
  deriving DecidableEq

/-- `Session`, core/src/connection.rs (3620 region). -/
structure Session where
  id : Option Nat
  auth : Auth
  permissions : Permissions

/-- `IdentityId` of a token, core/src/connection.rs:3856-3862. -/
inductive IdentityId where
  | user (id : Id)
  | role (id : Id)
  deriving DecidableEq

/-- `AuthenticationToken`, core/src/admin/authentication_token.rs:7-13. -/
structure Token where
  identity : IdentityId
  token : Bytes
  deriving DecidableEq

/-- Argon2 and BLAKE3 (external): password verification for a user id (storage/argon.rs), the hash of a
request time and the response to a challenge (core/src/admin/authentication_token.rs:99-110, 139-149). -/
structure Hashes where
  verify : Id → Bytes → Bytes → Bool
  requestTime : Nat → Bytes → Bytes
  response : Bytes → Bytes → Nat → Bytes

/-- The storage: `Data::sessions` (storage.rs:215-219, 248), `authenticated_permissions`, and the
admin database with its tokens. -/
structure St where
  adm : Adm
  tokens : Id → Option Token
  inherited : Permissions
  sessions : List (Nat × Session)
  lastId : Nat

/-- `Storage`, storage.rs:151-155: `authentication` (the registered session) and `effective_session`. -/
structure Handle where
  authentication : Option Session
  effective : Option Session

/-- An unauthenticated local handle: `Storage::from(instance)`, `HasSession for StorageInstance`. -/
def Handle.local : Handle := ⟨none, none⟩

/-- `HasSession::allowed_to` / `check_permission`, core/src/connection/has_session.rs:24-33. -/
def Handle.allowed (h : Handle) (r : Resource) (a : Action) : Bool :=
  match h.effective with
  | none => true
  | some s => s.permissions.allows r a

/-- `Storage::with_effective_permissions`, storage.rs:529-546. -/
def Handle.restrict (h : Handle) (p : Permissions) : Option Handle :=
  match h.effective with
  | some _ => none
  | none => some { h with effective := some ⟨none, .none, p⟩ }

/-- The storage handle inside the `Database` that `Storage::database_without_schema` returns,
storage.rs:366-370: permission checks of a database use its session (database.rs:990-994). -/
def Handle.databaseWithoutSchema (h : Handle) : Handle := h

/-- The same for `Storage::database`, storage.rs:1247-1249, 1012-1015, 712-713: the session is not passed on
(`storage: None`). -/
def Handle.database (_ : Handle) : Handle := .local

/-- The same for `Storage::admin`, storage.rs:1230-1232, 960-967. -/
def Handle.admin (_ : Handle) : Handle := .local

/-- `Iterator::unique`. -/
def unique : List Id → List Id
  | [] => []
  | x :: xs => x :: (unique xs).filter fun y => y ≠ x

/-- `Vec::dedup`: remove consecutive repetitions. -/
def dedup : List Id → List Id
  | [] => []
  | x :: xs =>
    match xs with
    | [] => [x]
    | y :: ys => if x = y then dedup (y :: ys) else x :: dedup (y :: ys)

/-- `User::effective_permissions`, core/src/admin/user.rs:61-98.  The roles are loaded by the ids in
`groups` (line 66). -/
def userPermissions (adm : Adm) (inherited : Permissions) (u : User) : Permissions :=
  let roleGroups := if u.roles.isEmpty then [] else unique ((adm.roles.getMany u.groups).flatMap (·.groups))
  let groups :=
    if roleGroups.isEmpty then adm.groups.getMany u.groups
    else adm.groups.getMany (dedup (roleGroups ++ u.groups))
  Permissions.merged ((groups.map (·.statements)) ++ [inherited])

/-- `Role::effective_permissions`, core/src/admin/role.rs:53-71. -/
def rolePermissions (adm : Adm) (inherited : Permissions) (r : Role) : Permissions :=
  Permissions.merged (((adm.groups.getMany r.groups).map (·.statements)) ++ [inherited])

/-- Register a new session: storage.rs:816-839, 850-873, token_authentication.rs:46-69. -/
def St.register (st : St) (auth : Auth) (p : Permissions) : Handle × St :=
  let id := st.lastId + 1
  let s : Session := ⟨some id, auth, p⟩
  (⟨some s, some s⟩, { st with sessions := (id, s) :: st.sessions, lastId := id })

/-- `assume_user`, storage.rs:806-840. -/
def St.assumeUser (st : St) (uid : Id) (u : User) : Handle × St :=
  st.register (.identity (.user uid u.username)) (userPermissions st.adm st.inherited u)

/-- `assume_role`, storage.rs:842-873. -/
def St.assumeRole (st : St) (rid : Id) (r : Role) : Handle × St :=
  st.register (.identity (.role rid r.name)) (rolePermissions st.adm st.inherited r)

/-- `IdentityReference`, core/src/connection.rs:3809-3814. -/
inductive IdentityRef where
  | user (r : Ref)
  | role (r : Ref)

/-- `Storage::assume_identity`, storage.rs:1362-1390 (for `Handle.local` also
`StorageInstance::assume_identity`, 1101-1122, which does not check). -/
def St.assumeIdentity (st : St) (h : Handle) (i : IdentityRef) : Except Err (Handle × St) :=
  match i with
  | .user r =>
    match r.load User.username st.adm.users with
    | .error e => .error e
    | .ok none => .error .invalidCredentials
    | .ok (some (uid, d)) =>
      if h.allowed (.user uid) .assumeIdentity then .ok (st.assumeUser uid d.contents)
      else .error .permissionDenied
  | .role r =>
    match r.load Role.name st.adm.roles with
    | .error e => .error e
    | .ok none => .error .invalidCredentials
    | .ok (some (rid, d)) =>
      if h.allowed (.role rid) .assumeIdentity then .ok (st.assumeRole rid d.contents)
      else .error .permissionDenied

/-- A registered session. -/
def St.session (st : St) (id : Nat) : Option Session := (st.sessions.find? fun p => p.1 == id).map (·.2)

/-- `assume_session`, storage.rs:1643-1678. -/
def St.assumeSession (st : St) (h : Handle) (s : Session) : Except Err Handle :=
  match h.authentication with
  | some _ => .error .invalidCredentials
  | none =>
    match s.id with
    | none => .ok ⟨none, some s⟩
    | some id =>
      match st.session id with
      | none => .error .invalidCredentials
      | some a => .ok ⟨some a, some ⟨a.id, a.auth, Permissions.merged [s.permissions, a.permissions]⟩⟩

/-- `authenticate` with a password: storage.rs:1321-1347 (`loaded_user`) and 785-802. -/
def St.authenticatePassword (H : Hashes) (st : St) (h : Handle) (user : Ref) (password : Bytes) :
    Except Err (Handle × St) :=
  match user.load User.username st.adm.users with
  | .error e => .error e
  | .ok none => .error .invalidCredentials
  | .ok (some (uid, d)) =>
    if h.allowed (.user uid) .authenticatePassword then
      match d.contents.argonHash with
      | none => .error .invalidCredentials
      | some hash =>
        if H.verify uid password hash then .ok (st.assumeUser uid d.contents)
        else .error .invalidCredentials
    else .error .permissionDenied

/-- `begin_token_authentication`, token_authentication.rs:17-70; times in nanoseconds; `now`, `now'` the
clock at the two readings, `nonce` the random nonce. -/
def St.beginToken (H : Hashes) (st : St) (h : Handle) (id : Id) (time : Nat) (timeHash : Bytes)
    (now now' : Nat) (nonce : Bytes) : Except Err (Handle × St) :=
  if h.allowed (.authToken id) .authenticateToken then
    if (max time now - min time now) / 1000000000 > 300 then .error .invalidCredentials
    else
      match st.tokens id with
      | none => .error .invalidCredentials
      | some t =>
        if timeHash.length = 32 ∧ H.requestTime time t.token = timeHash then
          .ok (st.register (.challenge id nonce now') [])
        else .error .invalidCredentials
  else .error .permissionDenied

/-- `finish_token_authentication`, token_authentication.rs:72-118; the session is removed first. -/
def St.finishToken (H : Hashes) (st : St) (h : Handle) (hash : Bytes) :
    Except Err Handle × St :=
  match h.authentication.bind (·.id) with
  | none => (.error .invalidCredentials, st)
  | some sid =>
    match st.session sid with
    | none => (.error .invalidCredentials, st)
    | some s =>
      let st := { st with sessions := st.sessions.filter fun p => p.1 ≠ sid }
      match s.auth with
      | .challenge tid nonce ts =>
        match st.tokens tid with
        | none => (.error .invalidCredentials, st)
        | some t =>
          if hash.length = 32 ∧ H.response t.token nonce ts = hash then
            match t.identity with
            | .user id =>
              match st.adm.users.get id with
              | none => (.error .invalidCredentials, st)
              | some d => let (h', st') := st.assumeUser id d.contents; (.ok h', st')
            | .role id =>
              match st.adm.roles.get id with
              | none => (.error .invalidCredentials, st)
              | some d => let (h', st') := st.assumeRole id d.contents; (.ok h', st')
          else (.error .invalidCredentials, st)
      | _ => (.error .invalidCredentials, st)

/-- Dropping a handle of session `sid` while `others` other handles of it are alive: `Drop for
AuthenticatedSession`, storage.rs:191-213, runs when the last `Arc` is gone; the map of sessions holds
one (storage.rs:217, 832, 866).  Subscribers are not modelled. -/
def St.dropHandle (st : St) (sid : Nat) (others : Nat) : St :=
  if others + (st.sessions.filter fun p => p.1 == sid).length = 0 then
    { st with sessions := st.sessions.filter fun p => p.1 ≠ sid }
  else st

/-- Everything that touches sessions. `records`: the admin database changes. -/
inductive Event where
  | assumeIdentity (h : Handle) (i : IdentityRef)
  | password (h : Handle) (user : Ref) (password : Bytes)
  | beginToken (h : Handle) (id : Id) (time : Nat) (timeHash : Bytes) (now now' : Nat) (nonce : Bytes)
  | finishToken (h : Handle) (hash : Bytes)
  | drop (sid others : Nat)
  | records (adm : Adm) (tokens : Id → Option Token)

/-- The handle and state after a call that either succeeds or changes nothing. -/
def orSame (st : St) (r : Except Err (Handle × St)) : Except Err Handle × St :=
  match r with
  | .ok (h, st') => (.ok h, st')
  | .error e => (.error e, st)

/-- What an event returns and does. -/
def St.next (H : Hashes) (st : St) : Event → Except Err Handle × St
  | .assumeIdentity h i => orSame st (st.assumeIdentity h i)
  | .password h u p => orSame st (st.authenticatePassword H h u p)
  | .beginToken h id t th n n' no => orSame st (st.beginToken H h id t th n n' no)
  | .finishToken h hash => st.finishToken H h hash
  | .drop sid others => (.ok .local, st.dropHandle sid others)
  | .records adm tokens => (.ok .local, { st with adm := adm, tokens := tokens })

end Bonsai.Ident
