import Verif.Views.C36
import Verif.Store.C22
import Verif.Names.DocId

/-!
# Model of the typed collection API

`crates/bonsaidb-core/src/connection/lowlevel.rs` (default methods), `connection.rs` (`Collection`,
`List`), `schema/collection.rs` (`SerializedCollection`, `List`), `document/collection.rs`,
`document/header.rs`, `document/id.rs`, `transaction.rs`.

The asynchronous variants (lowlevel.rs:648-1100, connection.rs:1129-1493 and 1609-1760) are the same
statements with `.await`, so they are not modelled again.  The connection is a local database without
a session; a remote connection is C70, permissions are C27.  Time and mutability of the caller's
document are not modelled: a call that updates the caller's document returns the new document.
-/

namespace Bonsai.Typed
open Bonsai Bonsai.Names Bonsai.Query Bonsai.Store

/-- `Collection` and `SerializedCollection`, core schema/collection.rs:231-327: the name, the
primary key type and the (user chosen) format of the contents.  `natural_id`, schema/collection.rs:285-290. -/
structure Coll where
  name : QName
  key : KeyTy
  Contents : Type
  serialize : Contents → Option Bytes
  deserialize : Bytes → Option Contents
  naturalId : Contents → Option key.T

/-- The errors of a typed call: those of the database, those of the conversions, and panics. -/
inductive TErr where
  | serialization
  | key
  | idTooLong
  | db (e : Err)
  | unreachable
  | panic
  deriving DecidableEq

/-- `DocumentId::new`, id.rs:234-241, with `TryFrom<&[u8]>`, id.rs:203-211. -/
def documentId (k : KeyTy) (v : k.T) : Except TErr Bytes :=
  match k.enc v with
  | none => .error .key
  | some b => if b.length ≤ DocId.MAX_LENGTH then .ok b else .error .idTooLong

/-- `DocumentId::deserialize`, id.rs:262-265. -/
def decodeId (k : KeyTy) (b : Bytes) : Except TErr k.T :=
  match k.dec b with
  | .ok v => .ok v
  | .err => .error .key
  | .panic => .error .panic

/-- `CollectionHeader`, document/header.rs:89-94. -/
structure CHeader (k : KeyTy) where
  id : k.T
  revision : Revision

/-- `CollectionDocument`, document/collection.rs:19-28. -/
structure CDoc (C : Coll) where
  header : CHeader C.key
  contents : C.Contents

/-- `TryFrom<Header> for CollectionHeader`, header.rs:146-151. -/
def CHeader.ofHeader (k : KeyTy) (h : Header) : Except TErr (CHeader k) :=
  match decodeId k h.id with
  | .error e => .error e
  | .ok v => .ok ⟨v, h.revision⟩

/-- `TryFrom<CollectionHeader> for Header`, header.rs:174-179. -/
def CHeader.toHeader {k : KeyTy} (h : CHeader k) : Except TErr Header :=
  match documentId k h.id with
  | .error e => .error e
  | .ok id => .ok ⟨id, h.revision⟩

/-- `SerializedCollection::serialize`, schema/collection.rs:323-327. -/
def ser (C : Coll) (x : C.Contents) : Except TErr Bytes :=
  match C.serialize x with
  | none => .error .serialization
  | some b => .ok b

/-- `SerializedCollection::deserialize`, schema/collection.rs:297-301. -/
def deser (C : Coll) (b : Bytes) : Except TErr C.Contents :=
  match C.deserialize b with
  | none => .error .serialization
  | some x => .ok x

/-- `TryFrom<&OwnedDocument> for CollectionDocument`, document/collection.rs:50-55. -/
def CDoc.ofDocument (C : Coll) (d : Document) : Except TErr (CDoc C) :=
  match deser C d.contents with
  | .error e => .error e
  | .ok x =>
    match CHeader.ofHeader C.key d.header with
    | .error e => .error e
    | .ok h => .ok ⟨h, x⟩

/-- `CollectionDocument::to_document`, document/collection.rs:308-313. -/
def CDoc.toDocument {C : Coll} (d : CDoc C) : Except TErr Document :=
  match ser C d.contents with
  | .error e => .error e
  | .ok b =>
    match d.header.toHeader with
    | .error e => .error e
    | .ok h => .ok ⟨h, b⟩

/-- `Iterator::collect` into `Result<Vec<_>, _>` (std): the first error wins. -/
def collect {α β : Type} (f : α → Except TErr β) : List α → Except TErr (List β)
  | [] => .ok []
  | a :: as =>
    match f a with
    | .error e => .error e
    | .ok b =>
      match collect f as with
      | .error e => .error e
      | .ok bs => .ok (b :: bs)

/-- `Bound::map_result`, connection.rs:2527-2533 (and `BoundRef::map_result`, 2925-2935). -/
def boundIds (k : KeyTy) : Bound k.T → Except TErr (Bound Bytes)
  | .unbounded => .ok .unbounded
  | .included v =>
    match documentId k v with
    | .error e => .error e
    | .ok b => .ok (.included b)
  | .excluded v =>
    match documentId k v with
    | .error e => .error e
    | .ok b => .ok (.excluded b)

/-- `RangeRef::map_result`, connection.rs:2842-2850. -/
def rangeIds (k : KeyTy) (r : Range k.T) : Except TErr (Range Bytes) :=
  match boundIds k r.start with
  | .error e => .error e
  | .ok a =>
    match boundIds k r.stop with
    | .error e => .error e
    | .ok z => .ok ⟨a, z⟩

/-- `if let Some(OperationResult::DocumentUpdated { header, .. }) = results.into_iter().next()`,
lowlevel.rs:61-68, 88-96 and 121-128; otherwise `unreachable!`. -/
def firstUpdated : List OpResult → Except TErr Header
  | .updated _ h :: _ => .ok h
  | _ => .error .unreachable

/-- `if let OperationResult::DocumentDeleted { .. } = &results[0]`, lowlevel.rs:252-259. -/
def firstDeleted : List OpResult → Except TErr Unit
  | .deleted _ _ :: _ => .ok ()
  | [] => .error .panic
  | _ => .error .unreachable

/-- `apply_transaction` with its answer turned into a header (the common part of `insert`, `update`
and `overwrite`, lowlevel.rs:44-128). -/
def applyWrite (s : Schema) (db : Db) (tid : Nat) (op : Operation) : Except TErr Header × Db :=
  match applyToRoots s db tid [op] with
  | (.error e, db') => (.error (.db e), db')
  | (.ok rs, db') => (firstUpdated rs, db')

/-- `CollectionHeader::try_from(header)` and the construction of the returned document,
lowlevel.rs:62 and 122, schema/collection.rs:693, 992 and 1139. -/
def answerDoc (C : Coll) (x : C.Contents) (r : Except TErr Header × Db) : Except TErr (CDoc C) × Db :=
  match r.1 with
  | .error e => (.error e, r.2)
  | .ok h =>
    match CHeader.ofHeader C.key h with
    | .error e => (.error e, r.2)
    | .ok ch => (.ok ⟨ch, x⟩, r.2)

/-- `Connection::insert` with an id given as bytes (a `DocumentId` is accepted for every primary key
type, id.rs:311-329), lowlevel.rs:44-69, behind `SerializedCollection::insert`,
schema/collection.rs:978-993. -/
def insertId (s : Schema) (C : Coll) (db : Db) (tid : Nat) (id : Option Bytes) (x : C.Contents) :
    Except TErr (CDoc C) × Db :=
  match ser C x with
  | .error e => (.error e, db)
  | .ok b => answerDoc C x (applyWrite s db tid ⟨C.name, .insert id b⟩)

/-- `SerializedCollection::insert`, schema/collection.rs:978-993 over `Collection::insert`,
connection.rs:238-248 and lowlevel.rs:44-69. -/
def insert (s : Schema) (C : Coll) (db : Db) (tid : Nat) (k : C.key.T) (x : C.Contents) :
    Except TErr (CDoc C) × Db :=
  match ser C x with
  | .error e => (.error e, db)
  | .ok b =>
    match documentId C.key k with
    | .error e => (.error e, db)
    | .ok id => answerDoc C x (applyWrite s db tid ⟨C.name, .insert (some id) b⟩)

/-- `SerializedCollection::push`, schema/collection.rs:682-694 over `Collection::push`,
connection.rs:180-193: with a natural id it is an insert. -/
def push (s : Schema) (C : Coll) (db : Db) (tid : Nat) (x : C.Contents) :
    Except TErr (CDoc C) × Db :=
  match C.naturalId x with
  | some k => insert s C db tid k x
  | none => insertId s C db tid none x

/-- `SerializedCollection::overwrite`, schema/collection.rs:1122-1140 over lowlevel.rs:106-129. -/
def overwrite (s : Schema) (C : Coll) (db : Db) (tid : Nat) (k : C.key.T) (x : C.Contents) :
    Except TErr (CDoc C) × Db :=
  match ser C x with
  | .error e => (.error e, db)
  | .ok b =>
    match documentId C.key k with
    | .error e => (.error e, db)
    | .ok id => answerDoc C x (applyWrite s db tid ⟨C.name, .overwrite id b⟩)

/-- `CollectionDocument::update`, document/collection.rs:94-102 over lowlevel.rs:78-97. -/
def update (s : Schema) (C : Coll) (db : Db) (tid : Nat) (d : CDoc C) :
    Except TErr (CDoc C) × Db :=
  match d.toDocument with
  | .error e => (.error e, db)
  | .ok doc => answerDoc C d.contents (applyWrite s db tid ⟨C.name, .update doc.header doc.contents⟩)

/-- `CollectionDocument::delete`, document/collection.rs:251-255 over lowlevel.rs:246-260. -/
def delete (s : Schema) (C : Coll) (db : Db) (tid : Nat) (h : CHeader C.key) :
    Except TErr Unit × Db :=
  match h.toHeader with
  | .error e => (.error e, db)
  | .ok hd =>
    match applyToRoots s db tid [⟨C.name, .delete hd⟩] with
    | (.error e, db') => (.error (.db e), db')
    | (.ok rs, db') => (firstDeleted rs, db')

/-- `Operation::push_serialized`, transaction.rs:200-205. -/
def pushOp (C : Coll) (x : C.Contents) : Except TErr Operation :=
  match C.naturalId x with
  | none =>
    match ser C x with
    | .error e => .error e
    | .ok b => .ok ⟨C.name, .insert none b⟩
  | some k =>
    match documentId C.key k with
    | .error e => .error e
    | .ok id =>
      match ser C x with
      | .error e => .error e
      | .ok b => .ok ⟨C.name, .insert (some id) b⟩

/-- The result loop of `push_all`, schema/collection.rs:793-801: results are zipped with the
documents, which carry default headers until then; what is not zipped would keep the default header
(`dflt`). -/
def pairUp (C : Coll) (dflt : CHeader C.key) : List OpResult → List C.Contents → Except TErr (List (CDoc C))
  | _, [] => .ok []
  | [], x :: xs =>
    match pairUp C dflt [] xs with
    | .error e => .error e
    | .ok ds => .ok (⟨dflt, x⟩ :: ds)
  | .updated _ h :: rs, x :: xs =>
    match CHeader.ofHeader C.key h with
    | .error e => .error e
    | .ok ch =>
      match pairUp C dflt rs xs with
      | .error e => .error e
      | .ok ds => .ok (⟨ch, x⟩ :: ds)
  | _ :: _, _ :: _ => .error .unreachable

/-- `SerializedCollection::push_all`, schema/collection.rs:769-802. -/
def pushAll (s : Schema) (C : Coll) (dflt : CHeader C.key) (db : Db) (tid : Nat)
    (xs : List C.Contents) : Except TErr (List (CDoc C)) × Db :=
  match collect (pushOp C) xs with
  | .error e => (.error e, db)
  | .ok ops =>
    match applyToRoots s db tid ops with
    | (.error e, db') => (.error (.db e), db')
    | (.ok rs, db') => (pairUp C dflt rs xs, db')

/-- `SerializedCollection::get`, schema/collection.rs:344-355 over lowlevel.rs:135-141. -/
def get (C : Coll) (db : Db) (k : C.key.T) : Except TErr (Option (CDoc C)) :=
  match documentId C.key k with
  | .error e => .error e
  | .ok id =>
    match getDoc db C.name id with
    | none => .ok none
    | some d =>
      match CDoc.ofDocument C d with
      | .error e => .error e
      | .ok cd => .ok (some cd)

/-- `SerializedCollection::get_multiple`, schema/collection.rs:403-418 over lowlevel.rs:150-166. -/
def getMultiple (C : Coll) (db : Db) (ks : List C.key.T) : Except TErr (List (CDoc C)) :=
  match collect (documentId C.key) ks with
  | .error e => .error e
  | .ok ids => collect (CDoc.ofDocument C) (getDocs db.trees C.name ids)

/-- The settings of a listing: `List`, connection.rs:468-517.  `order` starts ascending and `limit`
empty (connection.rs:487-497); `ascending`, `descending` and `limit` set them (500-517). -/
structure ListSettings (k : KeyTy) where
  range : Range k.T
  order : Sort' := .ascending
  limit : Option Nat := none

/-- `List::query`, schema/collection.rs:2151-2153 over connection.rs:589-600 and lowlevel.rs:176-192. -/
def list (C : Coll) (db : Db) (l : ListSettings C.key) : Except TErr (List (CDoc C)) :=
  match rangeIds C.key l.range with
  | .error e => .error e
  | .ok r => collect (CDoc.ofDocument C) (listDocs db.trees C.name r l.order l.limit)

/-- `List::headers`, connection.rs:562-571 and lowlevel.rs:202-218. -/
def headers (C : Coll) (db : Db) (l : ListSettings C.key) : Except TErr (List Header) :=
  match rangeIds C.key l.range with
  | .error e => .error e
  | .ok r => .ok (listHeaders db.trees C.name r l.order l.limit)

/-- `List::count`, connection.rs:536-541 and lowlevel.rs:226-238: order and limit are not passed on. -/
def count (C : Coll) (db : Db) (l : ListSettings C.key) : Except TErr Nat :=
  match rangeIds C.key l.range with
  | .error e => .error e
  | .ok r => .ok (countDocs db.trees C.name r)

/-- The calls of the typed API. -/
inductive TCall (C : Coll) where
  | push (x : C.Contents)
  | pushAll (xs : List C.Contents)
  | insert (k : C.key.T) (x : C.Contents)
  | overwrite (k : C.key.T) (x : C.Contents)
  | update (d : CDoc C)
  | delete (h : CHeader C.key)
  | get (k : C.key.T)
  | getMultiple (ks : List C.key.T)
  | list (l : ListSettings C.key)
  | headers (l : ListSettings C.key)
  | count (l : ListSettings C.key)

/-- Their answers. -/
inductive TAnswer (C : Coll) where
  | doc (d : CDoc C)
  | done
  | found (d : Option (CDoc C))
  | docs (ds : List (CDoc C))
  | headers (hs : List Header)
  | count (n : Nat)

/-- Wrap the answer of a call. -/
def wrap {α : Type} {C : Coll} (f : α → TAnswer C) : Except TErr α → Except TErr (TAnswer C)
  | .error e => .error e
  | .ok a => .ok (f a)

/-- Execute a typed call on the database.  `dflt` is the header `push_all` starts from
(schema/collection.rs:783-789). -/
def run (s : Schema) (C : Coll) (dflt : CHeader C.key) (db : Db) (tid : Nat) :
    TCall C → Except TErr (TAnswer C) × Db
  | .push x => (wrap .doc (push s C db tid x).1, (push s C db tid x).2)
  | .pushAll xs => (wrap .docs (pushAll s C dflt db tid xs).1, (pushAll s C dflt db tid xs).2)
  | .insert k x => (wrap .doc (insert s C db tid k x).1, (insert s C db tid k x).2)
  | .overwrite k x => (wrap .doc (overwrite s C db tid k x).1, (overwrite s C db tid k x).2)
  | .update d => (wrap .doc (update s C db tid d).1, (update s C db tid d).2)
  | .delete h => (wrap (fun _ => .done) (delete s C db tid h).1, (delete s C db tid h).2)
  | .get k => (wrap .found (get C db k), db)
  | .getMultiple ks => (wrap .docs (getMultiple C db ks), db)
  | .list l => (wrap .docs (list C db l), db)
  | .headers l => (wrap .headers (headers C db l), db)
  | .count l => (wrap .count (count C db l), db)

end Bonsai.Typed
