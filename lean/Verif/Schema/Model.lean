import Verif.Views.Txn

/-!
# Schematics: how collections and views are registered (model)

`crates/bonsaidb-core/src/schema/schematic.rs:18-199`.  A `HashMap` is a list of pairs with different keys; nothing
proved depends on its order.  Types are told apart by their `TypeId`, a number here.
-/
set_option linter.unusedSimpArgs false
set_option linter.unusedSectionVars false

namespace Bonsai.Schm
open Bonsai Bonsai.Names Bonsai.Store

/-- What `define_collection::<C>` takes from `C`, schematic.rs:51-66: the type, `collection_name()`,
`encryption_key()`, the id generator of its primary key (`KeyIdGenerator`, modelled by `keyNextId` in
`Store/C22.lean`) and the description of the key (some number). -/
structure CollDef where
  type : Nat
  name : QName
  key : Option String
  nextId : Option Bytes → Option Bytes
  description : Nat

/-- A view given to `define_view_with_schema`, schematic.rs:78-86: the type `V` and the instance. -/
structure ViewDef where
  type : Nat
  view : View

/-- `HashMap::get` (std). -/
def find {α β : Type} [DecidableEq α] (m : List (α × β)) (a : α) : Option β := (m.find? fun p => p.1 = a).map (·.2)

/-- `HashMap::insert` (std): the value of an existing key is replaced. -/
def put {α β : Type} [DecidableEq α] (m : List (α × β)) (a : α) (b : β) : List (α × β) :=
  m.filter (fun p => p.1 ≠ a) ++ [(a, b)]

/-- `entry(a).or_default().push(x)`, schematic.rs:95-103. -/
def pushTo {α β : Type} [DecidableEq α] (m : List (α × List β)) (a : α) (x : β) : List (α × List β) :=
  put m a ((find m a).getD [] ++ [x])

/-- `Schematic`, schematic.rs:19-30 (without its name). -/
structure Schematic where
  contained : List (QName × Nat)
  byType : List (Nat × QName)
  keys : List (QName × String)
  generators : List (QName × (Option Bytes → Option Bytes))
  views : List (Nat × View)
  byName : List (VName × Nat)
  byCollection : List (QName × List Nat)
  eager : List (QName × List Nat)

/-- The errors of `define_collection` and `define_view`. -/
inductive SErr where
  | collectionAlreadyDefined
  | viewAlreadyRegistered (n : VName)
  deriving DecidableEq

/-- schematic.rs:35-45. -/
def Schematic.new : Schematic := ⟨[], [], [], [], [], [], [], []⟩

/-- `define_collection` before it calls `define_views`, schematic.rs:51-62. -/
def Schematic.addCollection (s : Schematic) (c : CollDef) : Except SErr Schematic :=
  match find s.contained c.name with
  | some _ => .error .collectionAlreadyDefined
  | none => .ok { s with
      contained := put s.contained c.name c.description
      byType := put s.byType c.type c.name
      keys := match c.key with
        | some k => put s.keys c.name k
        | none => s.keys
      generators := put s.generators c.name c.nextId }

/-- `define_view_with_schema`, schematic.rs:78-107. -/
def Schematic.addView (s : Schematic) (v : ViewDef) : Except SErr Schematic :=
  match find s.byName v.view.name with
  | some _ => .error (.viewAlreadyRegistered v.view.name)
  | none => .ok { s with
      views := put s.views v.type v.view
      byName := put s.byName v.view.name v.type
      eager := if v.view.policy.isEager then pushTo s.eager v.view.name.collection v.type else s.eager
      byCollection := pushTo s.byCollection v.view.name.collection v.type }

/-- What the user's `define_collections` and `define_views` call, in order; they stop at an error (`?`). -/
inductive Call where
  | view (v : ViewDef)
  /-- `define_collection::<C>()` with the calls of `C::define_views`. -/
  | collection (c : CollDef) (views : List Call)

mutual
/-- `define_collection` and `define_view`, schematic.rs:51-107. -/
def Call.run : Call → Schematic → Except SErr Schematic
  | .view v, s => s.addView v
  | .collection c views, s =>
    match s.addCollection c with
    | .error e => .error e
    | .ok s => runAll views s

/-- Several calls, each followed by `?`. -/
def runAll : List Call → Schematic → Except SErr Schematic
  | [], s => .ok s
  | c :: cs, s =>
    match c.run s with
    | .error e => .error e
    | .ok s => runAll cs s
end

/-- `from_schema`, schematic.rs:34-48. -/
def fromSchema (calls : List Call) : Except SErr Schematic := runAll calls .new

/-- `contains_collection`, schematic.rs:110-114. -/
def Schematic.containsCollection (s : Schematic) (type : Nat) : Bool := (find s.byType type).isSome

/-- `collection_primary_key_description`, schematic.rs:116-124. -/
def Schematic.description (s : Schematic) (c : QName) : Option Nat := find s.contained c

/-- `next_id_for_collection`, schematic.rs:126-138; the outer `none` is `CollectionNotFound`. -/
def Schematic.nextId (s : Schematic) (c : QName) (id : Option Bytes) : Option (Option Bytes) :=
  (find s.generators c).map fun g => g id

/-- `view_by_name`, schematic.rs:140-147; `none` is `ViewNotFound`. -/
def Schematic.viewByName (s : Schematic) (n : VName) : Option View := (find s.byName n).bind (find s.views)

/-- `view::<V>`, schematic.rs:149-155. -/
def Schematic.viewOf (s : Schematic) (type : Nat) : Option View := find s.views type

/-- `views`, schematic.rs:157-160. -/
def Schematic.allViews (s : Schematic) : List View := s.views.map (·.2)

/-- `views_in_collection`, schematic.rs:162-174. -/
def Schematic.viewsIn (s : Schematic) (c : QName) : List View := ((find s.byCollection c).getD []).filterMap (find s.views)

/-- `eager_views_in_collection`, schematic.rs:176-189. -/
def Schematic.eagerIn (s : Schematic) (c : QName) : List View := ((find s.eager c).getD []).filterMap (find s.views)

/-- `encryption_key_for_collection`, schematic.rs:191-195. -/
def Schematic.encryptionKey (s : Schematic) (c : QName) : Option String := find s.keys c

/-- `collections`, schematic.rs:197-200. -/
def Schematic.collections (s : Schematic) : List QName := s.contained.map (·.1)

/-! ## Specification: the definitions in the order of the calls -/

mutual
def Call.colls : Call → List CollDef
  | .view _ => []
  | .collection c views => c :: collsOf views

/-- The collections that are defined. -/
def collsOf : List Call → List CollDef
  | [] => []
  | c :: cs => c.colls ++ collsOf cs
end

mutual
def Call.viewDefs : Call → List ViewDef
  | .view v => [v]
  | .collection _ views => viewsOf views

/-- The views that are defined. -/
def viewsOf : List Call → List ViewDef
  | [] => []
  | c :: cs => c.viewDefs ++ viewsOf cs
end

end Bonsai.Schm
