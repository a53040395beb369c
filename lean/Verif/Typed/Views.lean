import Verif.Typed.C73
import Verif.Views.C33
import Verif.Views.C35

/-!
# Model of the typed view API

`crates/bonsaidb-core/src/connection/lowlevel.rs:269-468` (`query`, `query_with_docs`,
`query_with_collection_docs`, `reduce`, `reduce_grouped`, `delete_docs`), `connection.rs:645-1030`
(the `View` builder), `schema/view.rs:327-373` (`CollectionMapReduce`), `schema/view/map.rs` and the
erasure of types in `schema/schematic.rs:230-300`.

As in `Typed/Model.lean` the asynchronous twins are not modelled again, and the connection is a local
database without a session.
-/
set_option linter.unusedVariables false

namespace Bonsai.Typed
open Bonsai Bonsai.Names Bonsai.Query Bonsai.Store

/-- The result of a typed `reduce`: `Err(ReduceUnimplemented)` and other errors are told apart. -/
inductive TRed (α : Type) where
  | ok (x : α)
  | unimplemented
  | error

/-- `View` and `SerializedView` (schema/view.rs:73-91 and 269-300), `ViewSchema` (schema/view.rs:173-199)
and `CollectionMapReduce` (schema/view.rs:327-354) over a collection.  `map` and `reduce` are the
user's functions; `none` is an error.  The key type of the map function (`MappedKey`) is the key type
of the view; the source of a mapping is the document given to `map` (as `Emit` does). -/
structure TView (C : Coll) where
  view : String
  policy : Store.Policy
  version : Nat
  key : KeyTy
  Value : Type
  serialize : Value → Option Bytes
  deserialize : Bytes → Option Value
  map : CDoc C → Option (List (key.T × Value))
  reduce : List (key.T × Value) → Bool → TRed Value

variable {C : Coll}

/-- `View::view_name`, schema/view.rs:85-90: the view's name within its collection. -/
def TView.name (V : TView C) : VName := ⟨C.name, V.view⟩

/-- `Map::serialized`, map.rs:26-42. -/
def serMapping (V : TView C) (p : V.key.T × V.Value) : Option (Bytes × Bytes) :=
  match V.key.enc p.1 with
  | none => none
  | some k =>
    match V.serialize p.2 with
    | none => none
    | some v => some (k, v)

/-- `mappings.iter().map(Map::serialized).collect()`, schematic.rs:263-271. -/
def serMappings (V : TView C) : List (V.key.T × V.Value) → Option (List (Bytes × Bytes))
  | [] => some []
  | p :: ps =>
    match serMapping V p with
    | none => none
    | some q =>
      match serMappings V ps with
      | none => none
      | some qs => some (q :: qs)

/-- `<ViewInstance as Serialized>::map`, schematic.rs:263-271 over `MapReduce::map` for a
`CollectionMapReduce`, schema/view.rs:362-364: the document is decoded first. -/
def rawMap (V : TView C) (d : Document) : Option (List (Bytes × Bytes)) :=
  match CDoc.ofDocument C d with
  | .error _ => none
  | .ok cd =>
    match V.map cd with
    | none => none
    | some ms => serMappings V ms

/-- The closure of `<ViewInstance as Serialized>::reduce`, schematic.rs:276-285. -/
def deserPair (V : TView C) (p : Bytes × Bytes) : Option (V.key.T × V.Value) :=
  match V.key.dec p.1 with
  | .ok k =>
    match V.deserialize p.2 with
    | none => none
    | some v => some (k, v)
  | _ => none

/-- `.collect::<Result<Vec<_>, view::Error>>()?`, schematic.rs:275-286. -/
def deserPairs (V : TView C) : List (Bytes × Bytes) → Option (List (V.key.T × V.Value))
  | [] => some []
  | p :: ps =>
    match deserPair V p with
    | none => none
    | some q =>
      match deserPairs V ps with
      | none => none
      | some qs => some (q :: qs)

/-- The end of `<ViewInstance as Serialized>::reduce`, schematic.rs:288-290. -/
def serReduced (V : TView C) : TRed V.Value → Reduced
  | .ok x =>
    match V.serialize x with
    | none => .error
    | some b => .ok b
  | .unimplemented => .unimplemented
  | .error => .error

/-- `<ViewInstance as Serialized>::reduce`, schematic.rs:273-291 (a panic of a key's decoder is an
error here). -/
def rawReduce (V : TView C) (l : List (Bytes × Bytes)) (rereduce : Bool) : Reduced :=
  match deserPairs V l with
  | none => .error
  | some ps => serReduced V (V.reduce ps rereduce)

/-- The view without its types: `ViewInstance` as `Serialized`, schematic.rs:230-292. -/
def TView.erase (V : TView C) : View := ⟨V.name, V.policy, V.version, rawMap V, rawReduce V⟩

/-- `CollectionMap`, map.rs:52-63. -/
structure TMapped (V : TView C) where
  source : CHeader C.key
  key : V.key.T
  value : V.Value

/-- The settings of a query: `View`, connection.rs:645-666.  The access policy decides which state of
the view is read and is not a field here: `es` below is the view as it was read. -/
structure ViewSettings (K : KeyTy) where
  key : Option (QueryKey K.T) := none
  order : Sort' := .ascending
  limit : Option Nat := none

/-- `View::new`, connection.rs:675-684. -/
def ViewSettings.new (K : KeyTy) : ViewSettings K := {}

/-- `View::with_key`, connection.rs:701-714. -/
def ViewSettings.withKey {K : KeyTy} (b : ViewSettings K) (k : K.T) : ViewSettings K :=
  { b with key := some (.matches_ k) }

/-- `View::with_keys`, connection.rs:729-747. -/
def ViewSettings.withKeys {K : KeyTy} (b : ViewSettings K) (ks : List K.T) : ViewSettings K :=
  { b with key := some (.multiple ks) }

/-- `View::with_key_range`, connection.rs:763-777 (and `with_key_prefix`, 798-811, with the range of
the prefix: C06). -/
def ViewSettings.withKeyRange {K : KeyTy} (b : ViewSettings K) (r : Range K.T) : ViewSettings K :=
  { b with key := some (.range r) }

/-- `View::ascending`, connection.rs:853-856. -/
def ViewSettings.ascending {K : KeyTy} (b : ViewSettings K) : ViewSettings K := { b with order := .ascending }

/-- `View::descending`, connection.rs:876-879. -/
def ViewSettings.descending {K : KeyTy} (b : ViewSettings K) : ViewSettings K := { b with order := .descending }

/-- `View::limit`, connection.rs:893-896. -/
def ViewSettings.withLimit {K : KeyTy} (b : ViewSettings K) (n : Nat) : ViewSettings K := { b with limit := some n }

/-- `key.map(|key| key.serialized()).transpose()?`, lowlevel.rs:283, 400, 429 and 465. -/
def serKey (K : KeyTy) : Option (QueryKey K.T) → Except TErr (Option (QueryKey Bytes))
  | none => .ok none
  | some q =>
    match serialized K q with
    | none => .error .key
    | some q' => .ok (some q')

/-- `V::deserialize(&mapping.value)?`, lowlevel.rs:295, 403 and 437. -/
def deserValue (V : TView C) (b : Bytes) : Except TErr V.Value :=
  match V.deserialize b with
  | none => .error .serialization
  | some x => .ok x

/-- The closure of `query`, lowlevel.rs:291-299. -/
def decodeMapped (V : TView C) (m : Mapped) : Except TErr (TMapped V) :=
  match decodeId V.key m.key with
  | .error e => .error e
  | .ok k =>
    match deserValue V m.value with
    | .error e => .error e
    | .ok v =>
      match CHeader.ofHeader C.key m.source with
      | .error e => .error e
      | .ok h => .ok ⟨h, k, v⟩

/-- `View::query`, connection.rs:911-914 over lowlevel.rs:269-301. -/
def query (V : TView C) (es : OMap ViewEntry) (b : ViewSettings V.key) : Except TErr (List (TMapped V)) :=
  match serKey V.key b.key with
  | .error e => .error e
  | .ok q => collect (decodeMapped V) (queryByName es q b.order b.limit)

/-- The closure of `query_with_docs`, lowlevel.rs:331-334. -/
def keyedDoc (C : Coll) (d : Document) : Except TErr (C.key.T × Document) :=
  match decodeId C.key d.header.id with
  | .error e => .error e
  | .ok k => .ok (k, d)

/-- `BTreeMap::get` of a `BTreeMap` collected from pairs (std): the last pair with the key counts. -/
def lookup {κ α : Type} [DecidableEq κ] : List (κ × α) → κ → Option α
  | [], _ => none
  | p :: ps, k => (lookup ps k).or (if p.1 = k then some p.2 else none)

/-- `View::query_with_docs`, connection.rs:934-941 over lowlevel.rs:313-342: the view is queried, then
the sources of the results are fetched from the database as it is then.  The map of documents is the
list of its pairs. -/
def queryWithDocs (V : TView C) (es : OMap ViewEntry) (db : Db) (b : ViewSettings V.key) :
    Except TErr (List (TMapped V) × List (C.key.T × Document)) :=
  match query V es b with
  | .error e => .error e
  | .ok rs =>
    match collect (documentId C.key) (rs.map fun r => r.source.id) with
    | .error e => .error e
    | .ok ids =>
      match collect (keyedDoc C) (getDocs db.trees C.name ids) with
      | .error e => .error e
      | .ok ds => .ok (rs, ds)

/-- The loop of `query_with_collection_docs`, lowlevel.rs:369-372. -/
def keyedCDoc (C : Coll) (p : C.key.T × Document) : Except TErr (C.key.T × CDoc C) :=
  match CDoc.ofDocument C p.2 with
  | .error e => .error e
  | .ok cd => .ok (p.1, cd)

/-- `View::query_with_collection_docs`, connection.rs:961-975 over lowlevel.rs:354-376. -/
def queryWithCollectionDocs (V : TView C) (es : OMap ViewEntry) (db : Db) (b : ViewSettings V.key) :
    Except TErr (List (TMapped V) × List (C.key.T × CDoc C)) :=
  match queryWithDocs V es db b with
  | .error e => .error e
  | .ok (rs, ds) =>
    match collect (keyedCDoc C) ds with
    | .error e => .error e
    | .ok cds => .ok (rs, cds)

/-- `MappedDocuments::get`, map.rs:260-276: `expect("missing mapped document")`. -/
def mappedGet {α : Type} {V : TView C} [DecidableEq C.key.T] (rs : List (TMapped V)) (ds : List (C.key.T × α)) (i : Nat) :
    Except TErr (Option (V.key.T × V.Value × α)) :=
  match rs[i]? with
  | none => .ok none
  | some r =>
    match lookup ds r.source.id with
    | none => .error .panic
    | some d => .ok (some (r.key, r.value, d))

/-- `MappedDocumentsIter::next`, map.rs:320-324, called until it answers `None`. -/
def iterDocs {α : Type} {V : TView C} [DecidableEq C.key.T] (rs : List (TMapped V)) (ds : List (C.key.T × α)) :
    Except TErr (List (V.key.T × V.Value × α)) :=
  collect (fun r : TMapped V =>
    match lookup ds r.source.id with
    | none => .error .panic
    | some d => .ok (r.key, r.value, d)) rs

/-- What `reduce` answers: the value or an error. -/
def reducedAnswer (V : TView C) : Reduced → TRed V.Value
  | .ok b =>
    match V.deserialize b with
    | none => .error
    | some x => .ok x
  | .unimplemented => .unimplemented
  | .error => .error

/-- `View::reduce`, connection.rs:988-991 over lowlevel.rs:388-404: order and limit are not passed on. -/
def reduce (V : TView C) (es : OMap ViewEntry) (b : ViewSettings V.key) : TRed V.Value :=
  match serKey V.key b.key with
  | .error _ => .error
  | .ok q => reducedAnswer V (reduceByName V.erase es q)

/-- The closure of `reduce_grouped`, lowlevel.rs:433-439. -/
def decodeGroup (V : TView C) (p : Bytes × Bytes) : Except TErr (V.key.T × V.Value) :=
  match decodeId V.key p.1 with
  | .error e => .error e
  | .ok k =>
    match deserValue V p.2 with
    | .error e => .error e
    | .ok v => .ok (k, v)

/-- `View::reduce_grouped`, connection.rs:1009-1012 over lowlevel.rs:417-442. -/
def reduceGrouped (V : TView C) (es : OMap ViewEntry) (b : ViewSettings V.key) :
    Except TErr (List (V.key.T × V.Value)) :=
  match serKey V.key b.key with
  | .error e => .error e
  | .ok q => collect (decodeGroup V) (Store.reduceGrouped es q)

/-- `View::delete_docs`, connection.rs:1024-1027 over lowlevel.rs:453-468. -/
def deleteDocs (s : Schema) (dbName : String) (sess : Session) (V : TView C) (es : OMap ViewEntry)
    (b : ViewSettings V.key) (db : Db) (tid : Nat) : Except TErr Nat × Db :=
  match serKey V.key b.key with
  | .error e => (.error e, db)
  | .ok q =>
    match Store.deleteDocs s dbName sess C.name es q db tid with
    | (.error e, db') => (.error (.db e), db')
    | (.ok n, db') => (.ok n, db')

/-! ## Specification -/

/-- `x` is the last value the list gives the key. -/
def LastPair {κ α : Type} (ms : List (κ × α)) (k : κ) (x : α) : Prop :=
  ∃ pre post, ms = pre ++ (k, x) :: post ∧ ∀ p ∈ post, p.1 ≠ k

/-- The document emits the value under the key.  A document emits nothing if its map fails or one of
its mappings has no encoding. -/
def TEmits (V : TView C) (d : CDoc C) (k : V.key.T) (x : V.Value) : Prop :=
  ∃ ms, V.map d = some ms ∧
    (∀ p ∈ ms, (V.key.enc p.1).isSome ∧ (V.serialize p.2).isSome) ∧ LastPair ms k x

/-- The query asks for the key, for an order of keys. -/
def SelectsBy {κ : Type} (lt : κ → κ → Prop) : Option (QueryKey κ) → κ → Prop
  | none, _ => True
  | some (.matches_ k'), k => k = k'
  | some (.range r), k => WithinBy lt r k
  | some (.multiple ks), k => k ∈ ks

/-- Every key of the query has an encoding (that fits in memory). -/
def KeysEncodable (K : KeyTy) : Option (QueryKey K.T) → Prop
  | none => True
  | some q => ∀ k ∈ keysOf q, ∃ b, K.enc k = some b ∧ b.length < 2 ^ 64

/-- The view belongs to the schema; the formats of keys and values are lossless; emitted keys fit in
memory. -/
structure LawfulView (s : Schema) (V : TView C) : Prop where
  known : V.erase ∈ s.views
  key : RoundTrips V.key
  values : ∀ x b, V.serialize x = some b → V.deserialize b = some x
  fits : ∀ d ms p b, V.map d = some ms → p ∈ ms → V.key.enc p.1 = some b → b.length < 2 ^ 64

/-- The operations of a transaction: those on the collection are typed operations. -/
def TypedOps (C : Coll) (ops : List Operation) : Prop :=
  ∀ op ∈ ops, op.collection = C.name → ∃ o : TOp C, o.build = .ok op

/-- One step of anything in the process, with typed transactions on the collection. -/
inductive TVStep (s : Schema) (S : Bytes → Prop) (C : Coll) : VSys → VSys → Prop
  /-- a transaction: typed operations on the collection, anything on other collections -/
  | transaction {σ tid ops t ch rs} (hops : TypedOps C ops) (hw : Writes S ops)
      (hp : prepare s σ.db.trees ops = .ok (t, ch, rs)) (htid : σ.db.lastTid ≤ tid) :
      TVStep s S C σ (σ.commit tid (some ch) t)
  /-- a step of a mapping job, a failure, a restart, … -/
  | internal {σ σ'} (hs : VStep s σ σ') (hd : σ'.db.trees.docs = σ.db.trees.docs) : TVStep s S C σ σ'

inductive TVExec (s : Schema) (S : Bytes → Prop) (C : Coll) : VSys → VSys → Prop
  | refl (σ) : TVExec s S C σ σ
  | step {σ σ' σ''} (h : TVExec s S C σ σ') (hs : TVStep s S C σ' σ'') : TVExec s S C σ σ''

/-- The re-reduction of reduced groups is the reduction of everything (as C33, for typed values). -/
def TConsistent (V : TView C) : Prop :=
  ∀ gs : List (V.key.T × List V.Value × V.Value), gs.length ≠ 1 →
    (∀ g ∈ gs, g.2.1 ≠ [] ∧ V.reduce (g.2.1.map fun x => (g.1, x)) false = .ok g.2.2) →
    V.reduce (gs.map fun g => (g.1, g.2.2)) true =
      V.reduce (gs.flatMap fun g => g.2.1.map fun x => (g.1, x)) false

end Bonsai.Typed
