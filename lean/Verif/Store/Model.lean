import Verif.Store.OMap
import Verif.Names.Resources

/-!
# Model of the document engine and the view mapper

`crates/bonsaidb-local/src/database.rs` (transactions), `crates/bonsaidb-local/src/views/mapper.rs`
(view maintenance), `crates/bonsaidb-core/src/document/revision.rs`,
`crates/bonsaidb-core/src/schema/schematic.rs` (id generation).

Not modelled: the byte format of stored documents and view entries (`pot`, `bincode`), encryption
and compression of trees (see C45), tracing.  `nebari` trees are `OMap`s.
-/

namespace Bonsai.Store
open Bonsai Bonsai.Names

/-! ## Documents -/

/-- `Revision`, core document/revision.rs:8-14. -/
structure Revision where
  id : Nat
  sha : Bytes
  deriving DecidableEq

/-- `Header`, core document/header.rs: the document id and its revision. -/
structure Header where
  id : Bytes
  revision : Revision
  deriving DecidableEq

/-- `BorrowedDocument` / `OwnedDocument`, core document.rs. -/
structure Document where
  header : Header
  contents : Bytes
  deriving DecidableEq

/-- The errors a transaction can end with (core `Error`), and panics. -/
inductive Err where
  | permissionDenied
  | collectionNotFound
  | conflict (c : QName) (h : Header)
  | notFound (c : QName) (id : Bytes)
  | push
  | tooLarge
  | uniqueViolation (view : VName) (conflicting existing : Header)
  | view
  | panic
  deriving DecidableEq

/-- `Revision::new`, revision.rs:19-21. -/
def Revision.first (digest : Bytes → Bytes) (contents : Bytes) : Revision := ⟨0, digest contents⟩

/-- `Revision::next_revision`, revision.rs:36-50.  `ok none` when the digest is unchanged; the
`checked_add` panic at `u32::MAX` is `error panic`. -/
def Revision.next (digest : Bytes → Bytes) (r : Revision) (contents : Bytes) :
    Except Err (Option Revision) :=
  if digest contents = r.sha then .ok none
  else if r.id + 1 < 2 ^ 32 then .ok (some ⟨r.id + 1, digest contents⟩)
  else .error .panic

/-- `BorrowedDocument::new`: a document at its first revision. -/
def Document.new (digest : Bytes → Bytes) (id contents : Bytes) : Document :=
  ⟨⟨id, .first digest contents⟩, contents⟩

/-! ## Views -/

/-- `ViewUpdatePolicy`, core schema/view.rs. -/
inductive Policy where
  | lazy
  | eager
  | unique
  deriving DecidableEq

/-- `ViewUpdatePolicy::is_eager`, core schema/view.rs: `Unique` and `Eager`. -/
def Policy.isEager : Policy → Bool
  | .lazy => false
  | _ => true

/-- Result of a user's `reduce`: `ReduceUnimplemented` is told apart from other errors. -/
inductive Reduced where
  | ok (b : Bytes)
  | unimplemented
  | error

/-- A view: `Serialized`, core schema/view.rs.  `map` and `reduce` are the user's functions (with
their serialization); `none` is an error. -/
structure View where
  name : VName
  policy : Policy
  version : Nat
  map : Document → Option (List (Bytes × Bytes))
  reduce : List (Bytes × Bytes) → Bool → Reduced

/-- `EntryMapping`, local views.rs:18-22. -/
structure EntryMapping where
  source : Header
  value : Bytes
  deriving DecidableEq

/-- `ViewEntry`, local views.rs:9-16. -/
structure ViewEntry where
  version : Nat
  key : Bytes
  mappings : List EntryMapping
  reduced : Bytes

/-- The reduce step of the updater, mapper.rs:443-462 and 512-531: keeps the old value once reduce is
known to be unimplemented. -/
def reduceEntry (v : View) (key : Bytes) (hasReduce : Bool) (e : ViewEntry) : Except Err (ViewEntry × Bool) :=
  if hasReduce then
    match v.reduce (e.mappings.map fun m => (key, m.value)) false with
    | .ok b => .ok ({ e with reduced := b }, true)
    | .unimplemented => .ok (e, false)
    | .error => .error .view
  else .ok (e, false)

/-- Update or append the mapping of one document, mapper.rs:479-498. -/
def upsert : List EntryMapping → EntryMapping → List EntryMapping
  | [], n => [n]
  | m :: ms, n =>
    if m.source.id = n.source.id then ⟨⟨m.source.id, n.source.revision⟩, n.value⟩ :: ms
    else m :: upsert ms n

/-- The unique check, mapper.rs:467-478. -/
def uniqueConflict (v : View) (ms : List EntryMapping) (n : EntryMapping) : Option Header :=
  match v.policy, ms with
  | .unique, m :: _ => if m.source.id = n.source.id then none else some m.source
  | _, _ => none

/-- The loop over new mappings, mapper.rs:466-499. -/
def addMappings (v : View) : List EntryMapping → List EntryMapping → Except Err (List EntryMapping)
  | ms, [] => .ok ms
  | ms, n :: ns =>
    match uniqueConflict v ms n with
    | some existing => .error (.uniqueViolation v.name n.source existing)
    | none => addMappings v (upsert ms n) ns

/-- `compare_swap_view_entry`, mapper.rs:422-536: `none` is `KeyOperation::Remove`.
`clean` are the documents to drop from this key, `new` the mappings to add.  After an error the code
skips the key and reports the error at the end, which aborts the transaction; here it stops at once. -/
def compareSwap (v : View) (hasReduce : Bool) (key : Bytes) (old : Option ViewEntry)
    (clean : List Bytes) (new : List EntryMapping) : Except Err (Option ViewEntry × Bool) :=
  let entry := old.getD ⟨v.version, key, [], []⟩
  if clean = [] then
    match addMappings v entry.mappings new with
    | .error e => .error e
    | .ok ms =>
      if new = [] then .ok (some entry, hasReduce)
      else match reduceEntry v key hasReduce { entry with mappings := ms } with
        | .error e => .error e
        | .ok (e, r) => .ok (some e, r)
  else
    let kept := entry.mappings.filter fun m => !clean.contains m.source.id
    if kept = [] ∧ new = [] then .ok (none, hasReduce)
    else match reduceEntry v key hasReduce { entry with mappings := kept } with
      | .error e => .error e
      | .ok (entry1, r1) =>
        match addMappings v entry1.mappings new with
        | .error e => .error e
        | .ok ms =>
          if new = [] then .ok (some entry1, r1)
          else match reduceEntry v key r1 { entry1 with mappings := ms } with
            | .error e => .error e
            | .ok (e, r) => .ok (some e, r)

/-- One document and what it maps to: mapper.rs:223-240 (`none`: the user's map failed). A document
that no longer exists maps to nothing. -/
def mapDoc (v : View) (docs : OMap Document) (id : Bytes) : Option (Header × List (Bytes × Bytes)) :=
  match docs.get id with
  | none => some (⟨id, ⟨0, []⟩⟩, [])
  | some d => (v.map d).map fun ms => (d.header, ms)

/-- The mapped documents of one batch, in the order the worker threads delivered them. -/
def mapDocs (v : View) (docs : OMap Document) :
    List Bytes → Option (List (Bytes × Header × List (Bytes × Bytes)))
  | [] => some []
  | id :: ids => (mapDoc v docs id).bind fun m => (mapDocs v docs ids).map fun ms => (id, m) :: ms

/-- `new_mappings` of a key, mapper.rs:252-258. -/
def newFor (maps : List (Bytes × Header × List (Bytes × Bytes))) (key : Bytes) : List EntryMapping :=
  maps.flatMap fun m => (m.2.2.filter fun kv => kv.1 = key).map fun kv => ⟨m.2.1, kv.2⟩

/-- The set of keys a document maps to, mapper.rs:233-236. -/
def keysOf (ms : List (Bytes × Bytes)) : List Bytes := (ms.map (·.1)).eraseDups

/-- `view_entries_to_clean` of a key, mapper.rs:286-297: documents that had the key and no longer
have it. -/
def cleanFor (docMap : OMap (List Bytes)) (maps : List (Bytes × Header × List (Bytes × Bytes)))
    (key : Bytes) : List Bytes :=
  (maps.filter fun m =>
    ((docMap.get m.1).getD []).contains key && !(keysOf m.2.2).contains key).map (·.1)

/-- `all_keys`, a `BTreeSet`: the new keys and the keys to clean; mapper.rs:247-249, 291. -/
def allKeys (docMap : OMap (List Bytes)) (maps : List (Bytes × Header × List (Bytes × Bytes))) :
    List Bytes :=
  ((maps.flatMap fun m => keysOf m.2.2 ++ ((docMap.get m.1).getD [])).foldl
    (fun (s : OMap Unit) k =>
      if newFor maps k = [] ∧ cleanFor docMap maps k = [] then s else s.set k ()) .empty).keys

/-- `update_document_map`, mapper.rs:267-299. -/
def updateDocMap (docMap : OMap (List Bytes))
    (maps : List (Bytes × Header × List (Bytes × Bytes))) : OMap (List Bytes) :=
  maps.foldl (fun dm m => dm.set m.1 (keysOf m.2.2)) docMap

/-- `update_view_entries`, mapper.rs:301-326. -/
def updateEntries (v : View) (clean : Bytes → List Bytes) (new : Bytes → List EntryMapping) :
    Bool → OMap ViewEntry → List Bytes → Except Err (OMap ViewEntry)
  | _, es, [] => .ok es
  | r, es, k :: ks =>
    match compareSwap v r k (es.get k) (clean k) (new k) with
    | .error e => .error e
    | .ok (some e, r') => updateEntries v clean new r' (es.set k e) ks
    | .ok (none, r') => updateEntries v clean new r' (es.remove k) ks

/-- One batch of `DocumentRequest::map` (mapper.rs:363-393), one turn of the loop of
`save_mappings`, mapper.rs:329-361: `order` is the order in which the
parallel workers delivered the documents of the batch. -/
def mapBatch (v : View) (docs : OMap Document) (order : List Bytes)
    (st : OMap ViewEntry × OMap (List Bytes)) :
    Except Err (OMap ViewEntry × OMap (List Bytes)) :=
  match mapDocs v docs order with
  | none => .error .view
  | some maps =>
    match updateEntries v (cleanFor st.2 maps) (newFor maps) true st.1 (allKeys st.2 maps) with
    | .error e => .error e
    | .ok es => .ok (es, updateDocMap st.2 maps)

/-- `DocumentRequest::map`, mapper.rs:363-394, as a sequence of batches. -/
def mapBatches (v : View) (docs : OMap Document) :
    List (List Bytes) → OMap ViewEntry × OMap (List Bytes) →
      Except Err (OMap ViewEntry × OMap (List Bytes))
  | [], st => .ok st
  | b :: bs, st =>
    match mapBatch v docs b st with
    | .error e => .error e
    | .ok st => mapBatches v docs bs st

/-! ## Transactions -/

/-- The storage trees of a database that documents and views use (their names never clash:
`C15_tree_names_distinct`). -/
structure Trees where
  docs : QName → OMap Document
  entries : VName → OMap ViewEntry
  docMap : VName → OMap (List Bytes)
  invalidated : VName → OMap Unit

def Trees.empty : Trees := ⟨fun _ => .empty, fun _ => .empty, fun _ => .empty, fun _ => .empty⟩

/-- The schema of a database (`Schematic`), with SHA-256 and the primary key's id generator
(`next_id_for_collection`, schematic.rs:128-138; `none` is an error). -/
structure Schema where
  digest : Bytes → Bytes
  collections : List QName
  nextId : QName → Option Bytes → Option Bytes
  views : List View

/-- `views_in_collection` -/
def Schema.viewsIn (s : Schema) (c : QName) : List View := s.views.filter fun v => v.name.collection = c

/-- `Command`, core transaction.rs. -/
inductive Command where
  | insert (id : Option Bytes) (contents : Bytes)
  | update (header : Header) (contents : Bytes)
  | overwrite (id : Bytes) (contents : Bytes)
  | delete (header : Header)
  | check (id : Bytes) (revision : Option Revision)

/-- `Operation`, core transaction.rs. -/
structure Operation where
  collection : QName
  command : Command

/-- `OperationResult`, core transaction.rs. -/
inductive OpResult where
  | success
  | updated (c : QName) (h : Header)
  | deleted (c : QName) (id : Bytes)
  deriving DecidableEq

/-- One view in `update_eager_views`, database.rs:691-713. -/
def updateEagerView (v : View) (id : Bytes) (t : Trees) : Except Err Trees :=
  match mapBatches v (t.docs v.name.collection) [[id]] (t.entries v.name, t.docMap v.name) with
  | .error e => .error e
  | .ok (es, dm) => .ok { t with entries := upd t.entries v.name es, docMap := upd t.docMap v.name dm }

def updateViewList : List View → Bytes → Trees → Except Err Trees
  | [], _, t => .ok t
  | v :: vs, id, t =>
    match updateEagerView v id t with
    | .error e => .error e
    | .ok t => updateViewList vs id t

/-- `update_eager_views`, database.rs:675-717. -/
def updateEagerViews (s : Schema) (c : QName) (id : Bytes) (t : Trees) : Except Err Trees :=
  updateViewList ((s.viewsIn c).filter fun v => v.policy.isEager) id t

/-- The compare-and-swap callback of `execute_update`, database.rs:478-545: the document to store
(if any) and the header to report. -/
def updateStored (s : Schema) (c : QName) (old : Option Document) (id : Bytes)
    (check : Option Revision) (contents : Bytes) : Except Err (Option Document × Header) :=
  match old with
  | some doc =>
    if check = none ∨ check = some doc.header.revision then
      match doc.header.revision.next s.digest contents with
      | .error e => .error e
      | .ok (some r) => .ok (some ⟨⟨id, r⟩, contents⟩, ⟨id, r⟩)
      | .ok none => .ok (none, doc.header)
    else .error (.conflict c doc.header)
  | none =>
    if check = none then
      .ok (some (.new s.digest id contents), (Document.new s.digest id contents).header)
    else .error (.notFound c id)

/-- Store a document and update the eager views of its collection. -/
def storeDoc (s : Schema) (c : QName) (t : Trees) (id : Bytes) (d : Document) : Except Err Trees :=
  updateEagerViews s c id { t with docs := upd t.docs c ((t.docs c).set id d) }

/-- `execute_update`, database.rs:461-560. -/
def execUpdate (s : Schema) (c : QName) (t : Trees) (id : Bytes) (check : Option Revision)
    (contents : Bytes) : Except Err (Trees × OpResult) :=
  match updateStored s c ((t.docs c).get id) id check contents with
  | .error e => .error e
  | .ok (none, h) => .ok (t, .updated c h)
  | .ok (some d, h) =>
    match storeDoc s c t id d with
    | .error e => .error e
    | .ok t => .ok (t, .updated c h)

/-- `execute_insert`, database.rs:574-616. -/
def execInsert (s : Schema) (c : QName) (t : Trees) (id : Option Bytes) (contents : Bytes) :
    Except Err (Trees × OpResult) :=
  match id.orElse fun _ => s.nextId c (t.docs c).lastKey with
  | none => .error .push
  | some id =>
    match (t.docs c).get id with
    | some doc => .error (.conflict c doc.header)
    | none =>
      match storeDoc s c t id (.new s.digest id contents) with
      | .error e => .error e
      | .ok t => .ok (t, .updated c (Document.new s.digest id contents).header)

/-- `execute_delete`, database.rs:627-664. -/
def execDelete (s : Schema) (c : QName) (t : Trees) (h : Header) : Except Err (Trees × OpResult) :=
  match (t.docs c).get h.id with
  | none => .error (.notFound c h.id)
  | some doc =>
    if doc.header = h then
      match updateEagerViews s c h.id { t with docs := upd t.docs c ((t.docs c).remove h.id) } with
      | .error e => .error e
      | .ok t => .ok (t, .deleted c h.id)
    else .error (.conflict c h)

/-- `execute_check`, database.rs:727-757. -/
def execCheck (c : QName) (t : Trees) (id : Bytes) (rev : Option Revision) :
    Except Err (Trees × OpResult) :=
  match (t.docs c).get id with
  | none => .error (.notFound c id)
  | some doc =>
    match rev with
    | some r => if doc.header.revision ≠ r then .error (.conflict c ⟨id, r⟩) else .ok (t, .success)
    | none => .ok (t, .success)

/-- `execute_operation`, database.rs:415-447. -/
def execOp (s : Schema) (t : Trees) (op : Operation) : Except Err (Trees × OpResult) :=
  match op.command with
  | .insert id contents => execInsert s op.collection t id contents
  | .update h contents => execUpdate s op.collection t h.id (some h.revision) contents
  | .overwrite id contents => execUpdate s op.collection t id none contents
  | .delete h => execDelete s op.collection t h
  | .check id rev => execCheck op.collection t id rev

/-- `ChangedDocument`, core transaction.rs: the collection is an index into `collections`. -/
structure ChangedDocument where
  collection : Nat
  id : Bytes
  deleted : Bool
  deriving DecidableEq

/-- `DocumentChanges`, core transaction.rs. -/
structure Changes where
  collections : List QName
  documents : List ChangedDocument
  deriving DecidableEq

/-- The changed document reported by a result, database.rs:329-337. -/
def changedBy : OpResult → Option (QName × Bytes × Bool)
  | .updated c h => some (c, h.id, false)
  | .deleted c id => some (c, id, true)
  | .success => none

/-- Recording one change, database.rs:338-354: the collection index is a `u16`. -/
def recordChange (ch : Changes) : Option (QName × Bytes × Bool) → Except Err Changes
  | none => .ok ch
  | some (c, id, deleted) =>
    match ch.collections.idxOf? c with
    | some i => .ok { ch with documents := ch.documents ++ [⟨i, id, deleted⟩] }
    | none =>
      if ch.collections.length ≤ 65535 then
        .ok ⟨ch.collections ++ [c], ch.documents ++ [⟨ch.collections.length, id, deleted⟩]⟩
      else .error .tooLarge

/-- The operation loop of `apply_transaction_to_roots`, database.rs:318-357. -/
def runOps (s : Schema) : Trees → Changes → List Operation →
    Except Err (Trees × Changes × List OpResult)
  | t, ch, [] => .ok (t, ch, [])
  | t, ch, op :: ops =>
    match execOp s t op with
    | .error e => .error e
    | .ok (t, r) =>
      match recordChange ch (changedBy r) with
      | .error e => .error e
      | .ok ch =>
        match runOps s t ch ops with
        | .error e => .error e
        | .ok (t, ch, rs) => .ok (t, ch, r :: rs)

/-- Marking one document for the lazy views of its collection, database.rs:392-409. -/
def invalidateDoc (s : Schema) (c : QName) (id : Bytes) (inv : VName → OMap Unit) :
    VName → OMap Unit :=
  ((s.viewsIn c).filter fun v => !v.policy.isEager).foldl
    (fun inv v => upd inv v.name ((inv v.name).set id ())) inv

/-- `invalidate_changed_documents`, database.rs:381-413 (grouping by collection does not matter). -/
def invalidateChanged (s : Schema) (ch : Changes) (t : Trees) : Trees :=
  { t with
    invalidated := ch.documents.foldl (fun inv d =>
      match ch.collections[d.collection]? with
      | some c => invalidateDoc s c d.id inv
      | none => inv) t.invalidated }

/-- `open_trees_for_transaction`, database.rs:257-304: every collection must be in the schema. -/
def collectionsKnown (s : Schema) (ops : List Operation) : Bool :=
  ops.all fun op => s.collections.contains op.collection

/-- The body of `apply_transaction_to_roots` up to the commit, database.rs:310-373: the trees to
commit, the log data and the results. -/
def prepare (s : Schema) (t : Trees) (ops : List Operation) :
    Except Err (Trees × Changes × List OpResult) :=
  if collectionsKnown s ops then
    match runOps s t ⟨[], []⟩ ops with
    | .error e => .error e
    | .ok (t, ch, rs) => .ok (invalidateChanged s ch t, ch, rs)
  else .error .collectionNotFound

/-- Committed state of a database: the trees and the transaction log (nebari's transaction log;
`none` data for transactions that are not document transactions, e.g. view updates). -/
structure Db where
  trees : Trees
  log : List (Nat × Option Changes)

def Db.empty : Db := ⟨.empty, []⟩

/-- `apply_transaction_to_roots`, database.rs:306-378: commit everything, or drop the nebari
transaction (which rolls back).  `tid` is the id nebari gives the transaction. The small-step model
with crashes is in `Verif/Store/Atomic.lean`. -/
def applyToRoots (s : Schema) (db : Db) (tid : Nat) (ops : List Operation) :
    Except Err (List OpResult) × Db :=
  match prepare s db.trees ops with
  | .error e => (.error e, db)
  | .ok (t, ch, rs) => (.ok rs, ⟨t, db.log ++ [(tid, some ch)]⟩)

/-- The document actions of `BonsaiAction` used by `apply_transaction`. -/
inductive DocAction where
  | insert | update | overwrite | delete | get
  deriving DecidableEq

/-- The permission an operation needs, database.rs:1132-1154. -/
def required (dbName : String) (op : Operation) : Resource × DocAction :=
  match op.command with
  | .insert .. => (.collection dbName op.collection, .insert)
  | .update h _ => (.document dbName op.collection h.id, .update)
  | .overwrite id _ => (.document dbName op.collection id, .overwrite)
  | .delete h => (.document dbName op.collection h.id, .delete)
  | .check id _ => (.document dbName op.collection id, .get)

/-- `check_permission`, core connection/has_session.rs:24-33: no session means no restriction. -/
abbrev Session := Option (Resource → DocAction → Bool)

def allowed (sess : Session) (r : Resource × DocAction) : Bool :=
  match sess with
  | none => true
  | some p => p r.1 r.2

/-- `apply_transaction`, database.rs:1128-1193: all permissions first, then the transaction. The
integrity checks of eager views (database.rs:1158-1189) run as their own jobs, see
`Verif/Views`. -/
def applyTransaction (s : Schema) (dbName : String) (sess : Session) (db : Db) (tid : Nat)
    (ops : List Operation) : Except Err (List OpResult) × Db :=
  if ops.all fun op => allowed sess (required dbName op) then applyToRoots s db tid ops
  else (.error .permissionDenied, db)

/-- `get_from_collection`, database.rs:1204-1225 (without the permission check). -/
def getDoc (db : Db) (c : QName) (id : Bytes) : Option Document := (db.trees.docs c).get id

end Bonsai.Store
