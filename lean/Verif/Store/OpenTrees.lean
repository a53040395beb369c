import Verif.Names.Escape
import Verif.Vault.Model
/-!
# The trees of a transaction (model)

`crates/bonsaidb-local/src/open_trees.rs`, `database.rs:257-413` and the parts of `execute_*` that look trees up, with the
registration of views in `crates/bonsaidb-core/src/schema/schematic.rs:78-108, 163-191`.  nebari's `transaction` takes one
state per tree it is given, in order, and locks it (external).
-/
set_option linter.unusedSimpArgs false
set_option linter.unusedVariables false

namespace Bonsai.Open

open Bonsai.Names
open Bonsai.Vault (KeyId TreeVault writerVault readerVault)

/-- A view as it is registered: its Rust type, what `view_name()` and `update_policy().is_eager()` of the instance give
(schematic.rs:86-93). -/
structure View where
  ty : Nat
  name : VName
  eager : Bool

/-- The fields of `Schematic` for views (schematic.rs:20-31): `views`, `views_by_name`, `views_by_collection`,
`eager_views_by_collection`; and the collections with their keys. -/
structure Schema where
  collections : List QName
  key : QName → Option KeyId
  views : Nat → Option View
  names : List VName
  byCollection : QName → List Nat
  eagerBy : QName → List Nat

/-- A schema with collections and no views: schematic.rs:36-48, 51-67. -/
def Schema.empty (cs : List QName) (key : QName → Option KeyId) : Schema :=
  ⟨cs, key, fun _ => none, [], fun _ => [], fun _ => []⟩

/-- `define_view_with_schema`, schematic.rs:78-108. -/
def Schema.define (s : Schema) (v : View) : Option Schema :=
  if v.name ∈ s.names then none
  else some { s with
    views := fun t => if t = v.ty then some v else s.views t
    names := v.name :: s.names
    eagerBy := fun c => if v.eager = true ∧ c = v.name.collection then s.eagerBy c ++ [v.ty] else s.eagerBy c
    byCollection := fun c => if c = v.name.collection then s.byCollection c ++ [v.ty] else s.byCollection c }

/-- A schema that defines views, in order; an error ends it (`Schema::define_collections`, `define_views`). -/
inductive Built (cs : List QName) (key : QName → Option KeyId) : List View → Schema → Prop where
  | nil : Built cs key [] (.empty cs key)
  | cons {vs : List View} {s s' : Schema} {v : View} : Built cs key vs s → s.define v = some s' →
      Built cs key (vs ++ [v]) s'

/-- `views_in_collection`, schematic.rs:163-175. -/
def Schema.viewsIn (s : Schema) (c : QName) : List View := (s.byCollection c).filterMap s.views

/-- `eager_views_in_collection`, schematic.rs:179-191. -/
def Schema.eagerIn (s : Schema) (c : QName) : List View := (s.eagerBy c).filterMap s.views

/-- `Versioned` and `Unversioned` of nebari. -/
inductive Kind where
  | versioned | unversioned
  deriving DecidableEq

/-- A tree that is opened. -/
structure Opened where
  name : Bytes
  kind : Kind
  vault : Option TreeVault

/-- `OpenTrees`, open_trees.rs:14-18. -/
structure OpenTrees where
  trees : List Opened
  index : Bytes → Option Nat

/-- `OpenTrees::default`, open_trees.rs:14. -/
def OpenTrees.empty : OpenTrees := ⟨[], fun _ => none⟩

/-- `open_tree`, open_trees.rs:23-40. -/
def OpenTrees.openTree (o : OpenTrees) (name : Bytes) (kind : Kind) (vault : Option TreeVault) : OpenTrees :=
  if (o.index name).isSome then o
  else ⟨o.trees ++ [⟨name, kind, vault⟩], fun n => if n = name then some o.trees.length else o.index n⟩

/-- The trees of one view: open_trees.rs:56-73. -/
def OpenTrees.openView (vault : Option TreeVault) (o : OpenTrees) (v : View) : OpenTrees :=
  if v.eager then
    (o.openTree (treeName (.viewDocMap v.name)) .unversioned vault).openTree (treeName (.viewEntries v.name))
      .unversioned vault
  else o.openTree (treeName (.viewInvalidated v.name)) .unversioned vault

/-- `open_trees_for_document_change`, open_trees.rs:43-75. -/
def OpenTrees.openFor (o : OpenTrees) (s : Schema) (c : QName) (vault : Option TreeVault) : OpenTrees :=
  (s.viewsIn c).foldl (OpenTrees.openView vault) (o.openTree (treeName (.documents c)) .versioned vault)

/-- `open_trees_for_transaction`, database.rs:257-304, for the collections of the operations; `none`:
`CollectionNotFound`.  `dk`, `st`: the default key and the vault of the storage. -/
def openAll (s : Schema) (dk : Option KeyId) (st : Option TreeVault) : List QName → OpenTrees → Option OpenTrees
  | [], o => some o
  | c :: cs, o =>
    if c ∈ s.collections then openAll s dk st cs (o.openFor s c (writerVault (s.key c) dk st)) else none

/-- How an operation ends, which its document decides: with an error; without a change (`Check`); with a change; with a
change that an eager view refuses. -/
inductive Outcome where
  | error | same | changed | refused
  deriving DecidableEq

/-- `transaction.tree::<R>(index[name]).unwrap()`, or `unlocked_tree` with the kind that the mapper locks it as: does it
succeed? -/
def OpenTrees.finds (o : OpenTrees) (name : Bytes) (kind : Kind) : Bool :=
  match o.index name with
  | none => false
  | some i =>
    match o.trees[i]? with
    | none => false
    | some t => t.kind = kind

/-- What a transaction can end with, as far as its trees are concerned. -/
inductive End where
  | notFound | panics | error | done
  deriving DecidableEq

/-- `update_eager_views`, database.rs:675-717. -/
def eagerOk (s : Schema) (o : OpenTrees) (c : QName) : Bool :=
  (s.eagerIn c).isEmpty ||
    (o.finds (treeName (.documents c)) .versioned &&
      (s.eagerIn c).all fun v =>
        o.finds (treeName (.viewDocMap v.name)) .unversioned && o.finds (treeName (.viewEntries v.name)) .unversioned)

/-- `invalidate_changed_documents`, database.rs:381-413, for one collection with a change. -/
def invalidateOk (s : Schema) (o : OpenTrees) (c : QName) : Bool :=
  ((s.viewsIn c).filter fun v => !v.eager).all fun v => o.finds (treeName (.viewInvalidated v.name)) .unversioned

/-- The loop over the operations: database.rs:322-356, 415-757. -/
def execute (s : Schema) (o : OpenTrees) : List (QName × Outcome) → End
  | [] => .done
  | (c, out) :: ops =>
    if o.finds (treeName (.documents c)) .versioned = false then .panics
    else match out with
      | .error => .error
      | .same => execute s o ops
      | .changed => if eagerOk s o c then execute s o ops else .panics
      | .refused => if eagerOk s o c then .error else .panics

/-- `apply_transaction_to_roots`, database.rs:306-379. -/
def apply (s : Schema) (dk : Option KeyId) (st : Option TreeVault) (ops : List (QName × Outcome)) : End :=
  match openAll s dk st (ops.map (·.1)) .empty with
  | none => .notFound
  | some o =>
    match execute s o ops with
    | .done => if (ops.filter fun p => p.2 = .changed).all fun p => invalidateOk s o p.1 then .done else .panics
    | e => e

/-- The vault through which the transaction log and the key-value store are written, storage.rs:653-656,
database.rs:365-372, keyvalue.rs:690: the storage's. -/
def logVault (_collection _default : Option KeyId) (st : Option TreeVault) : Option TreeVault := st

end Bonsai.Open
