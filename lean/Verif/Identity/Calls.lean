import Verif.Identity.C47
import Verif.Storage.Databases

/-!
# The calls of a storage and their permissions (model)

`impl StorageConnection for Storage`, crates/bonsaidb-local/src/storage.rs:1226-1485, and the functions of
`StorageInstance` it uses. A handle with a session checks permissions, a handle without one does not
(`Handle.allowed`). Every access to the admin database is a step of its own: other callers act between
them.
-/
set_option linter.unusedSimpArgs false
set_option linter.unusedSectionVars false
set_option linter.unusedVariables false

namespace Bonsai.Ident
open Bonsai Bonsai.Names

/-- The calls. `hash` of `setPassword` is what Argon2 makes of a user's id, the password and a random salt (external);
the times and the nonce of `beginToken` as in `St.beginToken`; `uid` is the id a new user gets. -/
inductive Call (S : Type) where
  | createDatabase (name : String) (schema : S) (onlyIfNeeded : Bool) (files : Storage.Path → Option Bytes)
  | deleteDatabase (name : String) (files : Storage.Path → Option Bytes)
  | listDatabases
  | listSchemas
  | createUser (name : String) (uid : Id)
  | deleteUser (user : Ref)
  | setPassword (user : Ref) (hash : Id → Bytes)
  | member (op : UserOp) (user other : Ref)
  | assumeIdentity (i : IdentityRef)
  | password (user : Ref) (password : Bytes)
  | beginToken (id : Id) (time : Nat) (timeHash : Bytes) (now now' : Nat) (nonce : Bytes)
  | finishToken (hash : Bytes)

/-- What a call returns. `failed` are the errors of `createDatabase` and `deleteDatabase` that
`Storage/Databases` does not distinguish. -/
inductive Answer (S : Type) where
  | done
  | failed
  | userId (id : Id)
  | databases (f : String → Option S)
  | schemas (f : S → Prop)
  | session (h : Handle)

/-- A call that has passed its permission check and has not ended. -/
inductive Flight where
  /-- before `self.instance.delete_user(user)`, storage.rs:1297 -/
  | deleteUser (user : Ref)
  /-- between the load and the deletion, storage.rs:1090-1091 -/
  | deleteLoaded (uid : Id) (doc : Doc User)
  /-- before `self.instance.set_user_password(user, password)`, storage.rs:1315 -/
  | setPassword (user : Ref) (hash : Id → Bytes)
  /-- between the load and the update, storage.rs:1104-1106 -/
  | passwordLoaded (uid : Id) (doc : Doc User) (hash : Id → Bytes)
  /-- before `user.update(&admin)`, storage.rs:746 -/
  | member (op : UserOp) (uid : Id) (doc : Doc User) (x : Id)

/-- The storage with its databases and the calls under way, with the handles they were made on. -/
structure Srv (S : Type) where
  st : St
  dbs : Storage.St S
  flying : List (Handle × Flight)

variable {S : Type} [DecidableEq S]

/-- The check of `delete_user` and `set_user_password`, storage.rs:1288-1296, 1306-1314: the id the
reference denotes. -/
def checkUser (adm : Adm) (h : Handle) (r : Ref) (a : Action) : Except Err Unit :=
  match r.resolve User.username adm.users with
  | .error e => .error e
  | .ok none => .error .userNotFound
  | .ok (some uid) => if h.allowed (.user uid) a then .ok () else .error .permissionDenied

/-- `User::load(user, &admin)?.ok_or(UserNotFound)`, storage.rs:1090, 1104. -/
def loadUser (adm : Adm) (r : Ref) : Except Err (Id × Doc User) :=
  match r.load User.username adm.users with
  | .error e => .error e
  | .ok none => .error .userNotFound
  | .ok (some p) => .ok p

/-- `user.delete(&admin)`, storage.rs:1091: the revision must still be the loaded one. -/
def removeUser (adm : Adm) (uid : Id) (loaded : Doc User) : Except Err Adm :=
  match adm.users.get uid with
  | none => .error .documentNotFound
  | some d =>
    if d.rev = loaded.rev ∧ d.contents = loaded.contents then .ok { adm with users := adm.users.del uid }
    else .error .conflict

/-- `list_available_schemas`, storage.rs:1059-1072: the registered schemas of existing databases. -/
def usedSchemas (dbs : Storage.St S) (s : S) : Prop := (∃ n, dbs.available n = some s) ∧ dbs.registered s = true

/-- The outcome of a check followed by something. -/
def guarded (h : Handle) (r : Resource) (a : Action) (σ : Srv S) (f : Except Err (Answer S) × Srv S) :
    Except Err (Answer S) × Srv S :=
  if h.allowed r a then f else (.error .permissionDenied, σ)

/-- The answer to a call that makes a session. -/
def sessionAnswer (σ : Srv S) (r : Except Err Handle × St) : Except Err (Answer S) × Srv S :=
  (match r.1 with
   | .ok h => .ok (.session h)
   | .error e => .error e, { σ with st := r.2 })

/-- `create_user`, storage.rs:1076-1083. -/
def Srv.createUser (σ : Srv S) (name : String) (uid : Id) : Except Err (Answer S) × Srv S :=
  match Ident.createUser σ.st.adm uid name with
  | .error e => (.error e, σ)
  | .ok adm => (.ok (.userId uid), { σ with st := { σ.st with adm := adm } })

/-- The answer to a call about databases. -/
def dbAnswer (σ : Srv S) (r : Bool × Storage.St S) : Except Err (Answer S) × Srv S :=
  (.ok (if r.1 then .done else .failed), { σ with dbs := r.2 })

/-- The calls that are one step: storage.rs:1234-1289 (databases, `create_user`), 1322-1391 (sessions). -/
def Srv.atomic (H : Hashes) (σ : Srv S) (h : Handle) : Call S → Option (Except Err (Answer S) × Srv S)
  | .createDatabase n s o f => some (guarded h (.database n) .createDatabase σ (dbAnswer σ (σ.dbs.create n s o f)))
  | .deleteDatabase n f => some (guarded h (.database n) .deleteDatabase σ (dbAnswer σ (σ.dbs.delete n f)))
  | .listDatabases => some (guarded h .server .listDatabases σ (.ok (.databases σ.dbs.available), σ))
  | .listSchemas => some (guarded h .server .listAvailableSchemas σ (.ok (.schemas (usedSchemas σ.dbs)), σ))
  | .createUser n uid => some (guarded h .server .createUser σ (σ.createUser n uid))
  | .assumeIdentity i => some (sessionAnswer σ (σ.st.next H (.assumeIdentity h i)))
  | .password u p => some (sessionAnswer σ (σ.st.next H (.password h u p)))
  | .beginToken id t th n n' no => some (sessionAnswer σ (σ.st.next H (.beginToken h id t th n n' no)))
  | .finishToken hash => some (sessionAnswer σ (σ.st.next H (.finishToken h hash)))
  | _ => none

/-- The first step of the other calls: the check. Either the call ends or it goes on. -/
def start (adm : Adm) (h : Handle) : Call S → Option (Except (Except Err Unit) Flight)
  | .deleteUser r =>
    match checkUser adm h r .deleteUser with
    | .error e => some (.error (.error e))
    | .ok () => some (.ok (.deleteUser r))
  | .setPassword r hash =>
    match checkUser adm h r .setPassword with
    | .error e => some (.error (.error e))
    | .ok () => some (.ok (.setPassword r hash))
  | .member op u o =>
    match loadFor adm op u o with
    | .error e => some (.error (.error e))
    | .ok (uid, d, x) =>
      if h.allowed (.user uid) op.action then
        if (op.apply x d.contents).2 then some (.ok (.member op uid d x)) else some (.error (.ok ()))
      else some (.error (.error .permissionDenied))
  | _ => none

/-- What a call under way does next: it goes on, or it ends, with a change or an error. -/
inductive Next where
  | goesOn (f : Flight)
  | ends (r : Except Err Adm)

/-- storage.rs:1085-1108, 742-750. -/
def Flight.next (adm : Adm) : Flight → Next
  | .deleteUser r =>
    match loadUser adm r with
    | .error e => .ends (.error e)
    | .ok (uid, d) => .goesOn (.deleteLoaded uid d)
  | .deleteLoaded uid d => .ends (removeUser adm uid d)
  | .setPassword r hash =>
    match loadUser adm r with
    | .error e => .ends (.error e)
    | .ok (uid, d) => .goesOn (.passwordLoaded uid d hash)
  | .passwordLoaded uid d hash => .ends (updateUser adm uid d { d.contents with argonHash := some (hash uid) })
  | .member op uid d x => .ends (updateUser adm uid d (op.apply x d.contents).1)

/-- One step of a caller on handle `h`: `some r` when a call returns. -/
inductive CallStep (H : Hashes) : Srv S → Handle → Option (Call S) → Option (Except Err (Answer S)) → Srv S → Prop
  | atomic (σ σ' : Srv S) (h : Handle) (c : Call S) (r : Except Err (Answer S))
      (ha : σ.atomic H h c = some (r, σ')) : CallStep H σ h (some c) (some r) σ'
  | refused (σ : Srv S) (h : Handle) (c : Call S) (r : Except Err Unit)
      (hs : start σ.st.adm h c = some (.error r)) :
      CallStep H σ h (some c) (some (r.map fun _ => .done)) σ
  | started (σ : Srv S) (h : Handle) (c : Call S) (f : Flight) (hs : start σ.st.adm h c = some (.ok f)) :
      CallStep H σ h (some c) none { σ with flying := (h, f) :: σ.flying }
  | goesOn (σ : Srv S) (h : Handle) (pre post : List (Handle × Flight)) (f f' : Flight)
      (hf : σ.flying = pre ++ (h, f) :: post) (hn : f.next σ.st.adm = .goesOn f') :
      CallStep H σ h none none { σ with flying := pre ++ (h, f') :: post }
  | commits (σ : Srv S) (h : Handle) (pre post : List (Handle × Flight)) (f : Flight) (adm : Adm)
      (hf : σ.flying = pre ++ (h, f) :: post) (hn : f.next σ.st.adm = .ends (.ok adm)) :
      CallStep H σ h none (some (.ok .done)) { σ with st := { σ.st with adm := adm }, flying := pre ++ post }
  | fails (σ : Srv S) (h : Handle) (pre post : List (Handle × Flight)) (f : Flight) (e : Err)
      (hf : σ.flying = pre ++ (h, f) :: post) (hn : f.next σ.st.adm = .ends (.error e)) :
      CallStep H σ h none (some (.error e)) { σ with flying := pre ++ post }

/-- A history of calls by anybody. -/
inductive CallRun (H : Hashes) : Srv S → List (Handle × Option (Call S)) → Srv S → Prop
  | nil (σ) : CallRun H σ [] σ
  | snoc {σ σ' σ'' tr h c r} (run : CallRun H σ tr σ') (k : CallStep H σ' h c r σ'') :
      CallRun H σ (tr ++ [(h, c)]) σ''

/-- A call without disturbance by others. -/
def Flight.finish (adm : Adm) (f : Flight) : Except Err Adm :=
  match f.next adm with
  | .ends r => r
  | .goesOn f' =>
    match f'.next adm with
    | .ends r => r
    | .goesOn _ => .error .conflict

/-- The three calls of several steps, undisturbed. -/
def callAlone (adm : Adm) (h : Handle) (c : Call S) : Option (Except Err Adm) :=
  match start adm h c with
  | none => none
  | some (.error (.error e)) => some (.error e)
  | some (.error (.ok ())) => some (.ok adm)
  | some (.ok f) => some (f.finish adm)

end Bonsai.Ident
