import Verif.Store.Model

/-!
# Specification of the document store: a plain map

An abstract store maps (collection, id) to a revision number and contents.  The operations below are
what a user of the API expects; they know nothing about trees, views or serialization.
-/

namespace Bonsai.Store
open Bonsai Bonsai.Names

/-- Revision number and contents. -/
abbrev AbsDoc := Nat × Bytes

abbrev AbsStore := QName → Bytes → Option AbsDoc

def AbsStore.empty : AbsStore := fun _ _ => none

/-- Change one document. -/
def AbsStore.put (a : AbsStore) (c : QName) (id : Bytes) (v : Option AbsDoc) : AbsStore :=
  fun c' id' => if c' = c ∧ id' = id then v else a c' id'

/-- The header a user sees for a document: its id, revision number and the digest of its contents. -/
def headerOf (digest : Bytes → Bytes) (id : Bytes) (d : AbsDoc) : Header := ⟨id, ⟨d.1, digest d.2⟩⟩

/-- Writing `contents` over an existing document: unchanged when identical, else the next revision.
Revision numbers are 32-bit. -/
def absWrite (digest : Bytes → Bytes) (a : AbsStore) (c : QName) (id : Bytes) (d : AbsDoc)
    (contents : Bytes) : Except Err (AbsStore × OpResult) :=
  if contents = d.2 then .ok (a, .updated c (headerOf digest id d))
  else if d.1 + 1 < 2 ^ 32 then
    .ok (a.put c id (some (d.1 + 1, contents)), .updated c (headerOf digest id (d.1 + 1, contents)))
  else .error .panic

/-- What one operation does to the map. `newId` is the id an insert without id would use. -/
def specOp (digest : Bytes → Bytes) (a : AbsStore) (newId : Option Bytes) (op : Operation) :
    Except Err (AbsStore × OpResult) :=
  match op.command with
  | .insert id contents =>
    match id.orElse fun _ => newId with
    | none => .error .push
    | some id =>
      match a op.collection id with
      | some d => .error (.conflict op.collection (headerOf digest id d))
      | none => .ok (a.put op.collection id (some (0, contents)),
          .updated op.collection (headerOf digest id (0, contents)))
  | .update h contents =>
    match a op.collection h.id with
    | none => .error (.notFound op.collection h.id)
    | some d =>
      if h = headerOf digest h.id d then absWrite digest a op.collection h.id d contents
      else .error (.conflict op.collection (headerOf digest h.id d))
  | .overwrite id contents =>
    match a op.collection id with
    | none => .ok (a.put op.collection id (some (0, contents)),
          .updated op.collection (headerOf digest id (0, contents)))
    | some d => absWrite digest a op.collection id d contents
  | .delete h =>
    match a op.collection h.id with
    | none => .error (.notFound op.collection h.id)
    | some d =>
      if h = headerOf digest h.id d then
        .ok (a.put op.collection h.id none, .deleted op.collection h.id)
      else .error (.conflict op.collection h)
  | .check id rev =>
    match a op.collection id with
    | none => .error (.notFound op.collection id)
    | some d =>
      match rev with
      | none => .ok (a, .success)
      | some r => if (headerOf digest id d).revision = r then .ok (a, .success)
        else .error (.conflict op.collection ⟨id, r⟩)

/-- `last` is the largest id in use in the collection (`none`: the collection is empty). -/
def IsLargest (a : AbsStore) (c : QName) : Option Bytes → Prop
  | none => ∀ id, a c id = none
  | some l => a c l ≠ none ∧ ∀ id, a c id ≠ none → id = l ∨ id < l

/-- Executing operations in order on the map, stopping at the first error. -/
inductive SpecRun (s : Schema) : AbsStore → List Operation → Except Err (AbsStore × List OpResult) → Prop
  | nil (a) : SpecRun s a [] (.ok (a, []))
  | fail {a op ops e last} (hl : IsLargest a op.collection last)
      (h : specOp s.digest a (s.nextId op.collection last) op = .error e) :
      SpecRun s a (op :: ops) (.error e)
  | next_ok {a op ops a' r last a'' rs} (hl : IsLargest a op.collection last)
      (h : specOp s.digest a (s.nextId op.collection last) op = .ok (a', r))
      (hr : SpecRun s a' ops (.ok (a'', rs))) : SpecRun s a (op :: ops) (.ok (a'', r :: rs))
  | next_fail {a op ops a' r last e} (hl : IsLargest a op.collection last)
      (h : specOp s.digest a (s.nextId op.collection last) op = .ok (a', r))
      (hr : SpecRun s a' ops (.error e)) : SpecRun s a (op :: ops) (.error e)

/-- Errors raised by a user's eager view. -/
def ViewErr : Err → Prop
  | .uniqueViolation .. => True
  | .view => True
  | _ => False

/-- No two different contents of the set have the same digest. -/
def CollisionFree (digest : Bytes → Bytes) (S : Bytes → Prop) : Prop :=
  ∀ x y, S x → S y → digest x = digest y → x = y

/-- The contents an operation writes. -/
def Command.contents : Command → Option Bytes
  | .insert _ c => some c
  | .update _ c => some c
  | .overwrite _ c => some c
  | _ => none

/-- Every content written by the operations is in the set. -/
def Writes (S : Bytes → Prop) (ops : List Operation) : Prop :=
  ∀ op ∈ ops, ∀ x, op.command.contents = some x → S x

/-- The map a set of trees represents. -/
def Trees.abs (t : Trees) : AbsStore := fun c id =>
  ((t.docs c).get id).map fun d => (d.header.revision.id, d.contents)

end Bonsai.Store
