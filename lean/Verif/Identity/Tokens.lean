import Verif.Identity.Model
/-!
# Where tokens come from (model)

`crates/bonsaidb-core/src/admin/authentication_token.rs:31-83`, `connection.rs:3839-3844`, core's `lib.rs:235-244`; users
with their ids: local `storage.rs:1076-1094`, `database.rs:585-596`, core's `schema/schematic.rs:299-316`.

Random draws are an argument.  Left out: that a random secret is hard to guess, writers at the same time (an insertion is
one transaction), other errors of the database.  That `last_key` sees only documents that exist is assumed of crate
`nebari`, as in C22.
-/
set_option linter.unusedSimpArgs false
set_option linter.unusedVariables false

namespace Bonsai.Ident
open Bonsai Bonsai.Names

/-- The characters of a token, authentication_token.rs:32-33. -/
def alphabet : List Char := "abcdefghijklmnopqrstuvwxyzABCDEFGHIJKLMNOPQRSTUVWXYZ0123456789_-.+/#".toList

/-- What one call of `AuthenticationToken::random` draws: an id, and 32 places in the alphabet,
authentication_token.rs:34-41. -/
structure Draw where
  id : Id
  choices : Fin 32 → Fin alphabet.length

/-- The secret, one byte for each character. -/
def Draw.secret (d : Draw) : Bytes :=
  (List.ofFn fun i => UInt8.ofNat (alphabet[d.choices i]).toNat)

/-- `IdentityReference::resolve`, connection.rs:3839-3844. -/
def IdentityRef.resolve (i : IdentityRef) (adm : Adm) : Except Err (Option IdentityId) :=
  match i with
  | .user r => (r.resolve User.username adm.users).map fun o => o.map IdentityId.user
  | .role r => (r.resolve Role.name adm.roles).map fun o => o.map IdentityId.role

/-- The loop of `create`: a draw whose id is taken conflicts, and is drawn again, authentication_token.rs:59-65. -/
def insertDraw (tokens : Id → Option Token) (identity : IdentityId) : List Draw → Option (Id × Token)
  | [] => none
  | d :: l => if (tokens d.id).isSome then insertDraw tokens identity l else some (d.id, ⟨identity, d.secret⟩)

/-- `AuthenticationToken::create`, authentication_token.rs:52-83; `none` if all draws are taken and more are needed. -/
def St.createToken (st : St) (i : IdentityRef) (draws : List Draw) : Except Err (Option (Id × Token) × St) :=
  match i.resolve st.adm with
  | .error e => .error e
  | .ok none => .error .invalidCredentials
  | .ok (some identity) =>
    match insertDraw st.tokens identity draws with
    | none => .ok (none, st)
    | some (id, t) => .ok (some (id, t), { st with tokens := fun x => if x = id then some t else st.tokens x })

/-- The largest id there is, or 0: `last_key`, and `first_value`, database.rs:587-596. -/
def Coll.last {α : Type} (c : Coll α) : Nat := c.foldr (fun p m => max p.1.toNat m) 0

/-- `create_user`, storage.rs:1076-1082: the id after the largest, schematic.rs:303-315, unless the name is taken. -/
def St.createUser (st : St) (name : String) : Except Err (Id × St) :=
  if (st.adm.users.named User.username name).isSome then .error .uniqueKeyViolation
  else if st.adm.users.last + 1 < 2 ^ 64 then
    let id : Id := BitVec.ofNat 64 (st.adm.users.last + 1)
    .ok (id, { st with adm := { st.adm with users := (id, ⟨0, name, [], [], none⟩) :: st.adm.users } })
  else .error .badId

/-- `delete_user`, storage.rs:1085-1094. -/
def St.deleteUser (st : St) (r : Ref) : Except Err St :=
  match r.load User.username st.adm.users with
  | .error e => .error e
  | .ok none => .error .userNotFound
  | .ok (some (id, _)) => .ok { st with adm := { st.adm with users := st.adm.users.del id } }

/-- What happens to users and tokens. -/
inductive TokenOp where
  | createToken (i : IdentityRef) (draws : List Draw)
  | deleteToken (id : Id)
  | createUser (name : String)
  | deleteUser (r : Ref)
  /-- A user's document is replaced: groups, roles, passwords, names. -/
  | updateUser (id : Id) (d : Doc User)

def St.tokenOp (st : St) : TokenOp → St
  | .createToken i l => match st.createToken i l with
    | .ok (_, st') => st'
    | .error _ => st
  | .deleteToken id => { st with tokens := fun x => if x = id then none else st.tokens x }
  | .createUser n => match st.createUser n with
    | .ok (_, st') => st'
    | .error _ => st
  | .deleteUser r => match st.deleteUser r with
    | .ok st' => st'
    | .error _ => st
  | .updateUser id d => { st with adm := { st.adm with users := st.adm.users.put id d } }

def St.tokenOps (st : St) (ops : List TokenOp) : St := ops.foldl St.tokenOp st

end Bonsai.Ident
