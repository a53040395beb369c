import Verif.Identity.Tokens
/-!
# Permission groups that come and go (model)

Administrators create, change and delete documents of `PermissionGroup` and `Role` through the admin database
(`crates/bonsaidb-core/src/admin/group.rs`, `role.rs`; ids of new documents: local `database.rs:585-596`), and change
memberships by `storage.rs:726-753, 875-910`.  Left out: who may do this (C68), writers at the same time (C24), new roles.
-/
set_option linter.unusedSimpArgs false
set_option linter.unusedVariables false

namespace Bonsai.Ident
open Bonsai Bonsai.Names

/-- A new group gets the id after the largest there is: database.rs:585-596, schematic.rs:303-315; names are unique. -/
def Adm.createGroup (adm : Adm) (g : Group) : Except Err (Id × Adm) :=
  if (adm.groups.named Group.name g.name).isSome then .error .uniqueKeyViolation
  else if adm.groups.last + 1 < 2 ^ 64 then
    let id : Id := BitVec.ofNat 64 (adm.groups.last + 1)
    .ok (id, { adm with groups := adm.groups ++ [(id, ⟨0, g⟩)] })
  else .error .badId

/-- `update_user_with_named_id`, storage.rs:726-753: a membership is added or removed. -/
def Adm.member (adm : Adm) (op : UserOp) (user other : Ref) : Except Err Adm :=
  match loadFor adm op user other with
  | .error e => .error e
  | .ok (uid, d, x) =>
    if (op.apply x d.contents).2 then updateUser adm uid d (op.apply x d.contents).1 else .ok adm

inductive GroupOp where
  | create (g : Group)
  | delete (id : Id)
  | update (id : Id) (d : Doc Group)
  | member (op : UserOp) (user other : Ref)
  /-- A role's document is replaced. -/
  | role (id : Id) (d : Doc Role)
  | createUser (uid : Id) (name : String)
  | deleteUser (uid : Id)

def Adm.groupOp (adm : Adm) : GroupOp → Adm
  | .create g => match adm.createGroup g with
    | .ok (_, a) => a
    | .error _ => adm
  | .delete id => { adm with groups := adm.groups.del id }
  | .update id d => { adm with groups := adm.groups.put id d }
  | .member op u x => match adm.member op u x with
    | .ok a => a
    | .error _ => adm
  | .role id d => { adm with roles := adm.roles.put id d }
  | .createUser uid n => match Bonsai.Ident.createUser adm uid n with
    | .ok a => a
    | .error _ => adm
  | .deleteUser uid => { adm with users := adm.users.del uid }

def Adm.groupOps (adm : Adm) (ops : List GroupOp) : Adm := ops.foldl Adm.groupOp adm

end Bonsai.Ident
