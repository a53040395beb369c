import Verif.Typed.Refine

/-!
# Typed transactions

`crates/bonsaidb-core/src/transaction.rs` (constructors of operations, `Transaction::apply`),
`schema/collection.rs` and `document/collection.rs` (the `…_in_transaction` methods).  The
transaction may mix operations on any number of collections.
-/

namespace Bonsai.Typed
open Bonsai Bonsai.Names Bonsai.Query Bonsai.Store

/-- What can be put into a transaction for a collection. -/
inductive TOp (C : Coll) where
  /-- `Operation::push_serialized`, `push_in_transaction` -/
  | push (x : C.Contents)
  /-- `Operation::insert_serialized` with or without a key, `insert_in_transaction` -/
  | insert (k : Option C.key.T) (x : C.Contents)
  /-- `Operation::overwrite_serialized`, `overwrite_in_transaction` -/
  | overwrite (k : C.key.T) (x : C.Contents)
  /-- `Operation::update_serialized`, `update_in_transaction` -/
  | update (h : CHeader C.key) (x : C.Contents)
  /-- `Operation::delete` of a document, `delete_in_transaction` -/
  | delete (h : CHeader C.key)
  /-- `Operation::check_document_exists` -/
  | checkExists (k : C.key.T)
  /-- `Operation::check_document_is_current` -/
  | checkCurrent (h : CHeader C.key)

/-- `id.map(DocumentId::new).transpose()?`, transaction.rs:183. -/
def optionId (K : KeyTy) : Option K.T → Except TErr (Option Bytes)
  | none => .ok none
  | some k =>
    match documentId K k with
    | .error e => .error e
    | .ok id => .ok (some id)

/-- `Operation::insert_serialized`, transaction.rs:179-186 (`insert_in_transaction`,
schema/collection.rs:1094-1104). -/
def insertOp (C : Coll) (k : Option C.key.T) (x : C.Contents) : Except TErr Operation :=
  match optionId C.key k with
  | .error e => .error e
  | .ok id =>
    match ser C x with
    | .error e => .error e
    | .ok b => .ok ⟨C.name, .insert id b⟩

/-- `Operation::overwrite_serialized`, transaction.rs:252-265 (`overwrite_in_transaction`,
schema/collection.rs:1212-1225). -/
def overwriteOp (C : Coll) (k : C.key.T) (x : C.Contents) : Except TErr Operation :=
  match ser C x with
  | .error e => .error e
  | .ok b =>
    match documentId C.key k with
    | .error e => .error e
    | .ok id => .ok ⟨C.name, .overwrite id b⟩

/-- `Operation::update_serialized`, transaction.rs:221-231 (`update_in_transaction`,
document/collection.rs:107-113). -/
def updateOp (C : Coll) (h : CHeader C.key) (x : C.Contents) : Except TErr Operation :=
  match ser C x with
  | .error e => .error e
  | .ok b =>
    match h.toHeader with
    | .error e => .error e
    | .ok hd => .ok ⟨C.name, .update hd b⟩

/-- `delete_in_transaction`, document/collection.rs:280-283, and `Operation::delete`,
transaction.rs:268-273. -/
def deleteOp (C : Coll) (h : CHeader C.key) : Except TErr Operation :=
  match h.toHeader with
  | .error e => .error e
  | .ok hd => .ok ⟨C.name, .delete hd⟩

/-- `Operation::check_document_exists`, transaction.rs:294-299 over 281-286. -/
def checkExistsOp (C : Coll) (k : C.key.T) : Except TErr Operation :=
  match documentId C.key k with
  | .error e => .error e
  | .ok id => .ok ⟨C.name, .check id none⟩

/-- `Operation::check_document_is_current`, transaction.rs:310-322. -/
def checkCurrentOp (C : Coll) (h : CHeader C.key) : Except TErr Operation :=
  match h.toHeader with
  | .error e => .error e
  | .ok hd => .ok ⟨C.name, .check hd.id (some hd.revision)⟩

/-- The operation made of it.  `push_serialized`, transaction.rs:200-205 (`push_in_transaction`,
schema/collection.rs:954-960). -/
def TOp.build {C : Coll} : TOp C → Except TErr Operation
  | .push x => pushOp C x
  | .insert k x => insertOp C k x
  | .overwrite k x => overwriteOp C k x
  | .update h x => updateOp C h x
  | .delete h => deleteOp C h
  | .checkExists k => checkExistsOp C k
  | .checkCurrent h => checkCurrentOp C h

/-- An operation on one of a family of collections. -/
abbrev AnyOp {ι : Type} (Cs : ι → Coll) := (i : ι) × TOp (Cs i)

/-- Building the operations of a transaction (`Transaction::push`, transaction.rs:77-79, with `?` at
every operation) and `Transaction::apply`, transaction.rs:90-95. -/
def applyTx {ι : Type} (s : Schema) (Cs : ι → Coll) (db : Db) (tid : Nat) (ops : List (AnyOp Cs)) :
    Except TErr (List OpResult) × Db :=
  match collect (fun o : AnyOp Cs => o.2.build) ops with
  | .error e => (.error e, db)
  | .ok os =>
    match applyToRoots s db tid os with
    | (.error e, db') => (.error (.db e), db')
    | (.ok rs, db') => (.ok rs, db')

/-! ## Specification -/

/-- An insert under the next automatic key. -/
inductive AutoInsertSpec (dg : Bytes → Bytes) (C : Coll) (first : Option C.key.T)
    (next : C.key.T → Option C.key.T) (m : TMap C) (x : C.Contents) :
    Except TErr (CDoc C) → TMap C → Prop
  | auto {k r m'} (hk : AutoKey first next m k) (h : InsertSpec dg C m k x r m') :
      AutoInsertSpec dg C first next m x r m'
  | noKey (hk : ∀ k, AutoKey first next m k → ∃ e, BadKey C.key k e) :
      AutoInsertSpec dg C first next m x (.error (.db .push)) m

/-- What an operation that stores a document does to the map. -/
inductive DocSpec (dg : Bytes → Bytes) (C : Coll) (first : Option C.key.T)
    (next : C.key.T → Option C.key.T) (m : TMap C) : TOp C → Except TErr (CDoc C) → TMap C → Prop
  | push {x r m'} (h : PushSpec dg C first next m x r m') : DocSpec dg C first next m (.push x) r m'
  | insert {k x r m'} (h : InsertSpec dg C m k x r m') : DocSpec dg C first next m (.insert (some k) x) r m'
  | insertAuto {x r m'} (h : AutoInsertSpec dg C first next m x r m') :
      DocSpec dg C first next m (.insert none x) r m'
  | overwriteNew {k x r m'} (hn : m k = none) (h : InsertSpec dg C m k x r m') :
      DocSpec dg C first next m (.overwrite k x) r m'
  | overwrite {k x n y r m'} (hs : m k = some (n, y)) (h : WriteSpec dg C m k n y x r m') :
      DocSpec dg C first next m (.overwrite k x) r m'
  | update {h x n y r m'} (hs : m h.id = some (n, y)) (hr : IsRev dg C n y h.revision)
      (hw : WriteSpec dg C m h.id n y x r m') : DocSpec dg C first next m (.update h x) r m'
  | updateMissing {h x id} (hn : m h.id = none) (hid : C.key.enc h.id = some id) :
      DocSpec dg C first next m (.update h x) (.error (.db (.notFound C.name id))) m
  | updateStale {h x n y id r} (hs : m h.id = some (n, y)) (hid : C.key.enc h.id = some id)
      (hr : IsRev dg C n y r) (hst : h.revision ≠ r) :
      DocSpec dg C first next m (.update h x) (.error (.db (.conflict C.name ⟨id, r⟩))) m

/-- What an operation answers and does to the map. -/
inductive TOpSpec (dg : Bytes → Bytes) (C : Coll) (first : Option C.key.T)
    (next : C.key.T → Option C.key.T) (m : TMap C) : TOp C → Except Err OpResult → TMap C → Prop
  | stored {op d id m'} (h : DocSpec dg C first next m op (.ok d) m')
      (hid : C.key.enc d.header.id = some id) :
      TOpSpec dg C first next m op (.ok (.updated C.name ⟨id, d.header.revision⟩)) m'
  | notStored {op e} (h : DocSpec dg C first next m op (.error (.db e)) m) :
      TOpSpec dg C first next m op (.error e) m
  | delete {h n y id m'} (hs : m h.id = some (n, y)) (hr : IsRev dg C n y h.revision)
      (hid : C.key.enc h.id = some id) (hc : Changed m h.id none m') :
      TOpSpec dg C first next m (.delete h) (.ok (.deleted C.name id)) m'
  | deleteMissing {h id} (hn : m h.id = none) (hid : C.key.enc h.id = some id) :
      TOpSpec dg C first next m (.delete h) (.error (.notFound C.name id)) m
  | deleteStale {h n y id r} (hs : m h.id = some (n, y)) (hid : C.key.enc h.id = some id)
      (hr : IsRev dg C n y r) (hst : h.revision ≠ r) :
      TOpSpec dg C first next m (.delete h) (.error (.conflict C.name ⟨id, h.revision⟩)) m
  | exists' {k v} (hs : m k = some v) : TOpSpec dg C first next m (.checkExists k) (.ok .success) m
  | existsMissing {k id} (hn : m k = none) (hid : C.key.enc k = some id) :
      TOpSpec dg C first next m (.checkExists k) (.error (.notFound C.name id)) m
  | current {h n y} (hs : m h.id = some (n, y)) (hr : IsRev dg C n y h.revision) :
      TOpSpec dg C first next m (.checkCurrent h) (.ok .success) m
  | currentMissing {h id} (hn : m h.id = none) (hid : C.key.enc h.id = some id) :
      TOpSpec dg C first next m (.checkCurrent h) (.error (.notFound C.name id)) m
  | currentStale {h n y id r} (hs : m h.id = some (n, y)) (hid : C.key.enc h.id = some id)
      (hr : IsRev dg C n y r) (hst : h.revision ≠ r) :
      TOpSpec dg C first next m (.checkCurrent h) (.error (.conflict C.name ⟨id, h.revision⟩)) m

/-- The maps of all collections. -/
abbrev Maps {ι : Type} (Cs : ι → Coll) := (i : ι) → TMap (Cs i)

/-- First keys and successors of each key type. -/
structure KeyOrders {ι : Type} (Cs : ι → Coll) where
  first : (i : ι) → Option (Cs i).key.T
  next : (i : ι) → (Cs i).key.T → Option (Cs i).key.T

/-- Only the map of collection `i` changes. -/
def ChangedAt {ι : Type} {Cs : ι → Coll} (M : Maps Cs) (i : ι) (m' : TMap (Cs i)) (M' : Maps Cs) : Prop :=
  M' i = m' ∧ ∀ j, j ≠ i → M' j = M j

/-- The operations one after the other, each on what the ones before it left, up to the first error. -/
inductive TxSpec {ι : Type} (dg : Bytes → Bytes) (Cs : ι → Coll) (K : KeyOrders Cs) :
    Maps Cs → List (AnyOp Cs) → Except Err (List OpResult) → Maps Cs → Prop
  | nil (M) : TxSpec dg Cs K M [] (.ok []) M
  | cons {M i op r m' M' ops rs M''} (h : TOpSpec dg (Cs i) (K.first i) (K.next i) (M i) op (.ok r) m')
      (hc : ChangedAt M i m' M') (hs : TxSpec dg Cs K M' ops (.ok rs) M'') :
      TxSpec dg Cs K M (⟨i, op⟩ :: ops) (.ok (r :: rs)) M''
  | fail {M i op e m' ops} (h : TOpSpec dg (Cs i) (K.first i) (K.next i) (M i) op (.error e) m') :
      TxSpec dg Cs K M (⟨i, op⟩ :: ops) (.error e) M
  | later {M i op r m' M' ops e M''} (h : TOpSpec dg (Cs i) (K.first i) (K.next i) (M i) op (.ok r) m')
      (hc : ChangedAt M i m' M') (hs : TxSpec dg Cs K M' ops (.error e) M'') :
      TxSpec dg Cs K M (⟨i, op⟩ :: ops) (.error e) M''

/-- Why an operation cannot be built. -/
inductive BadOp {C : Coll} : TOp C → TErr → Prop
  | key {op k e} (hk : k ∈ (match op with
        | .push x => (C.naturalId x).toList | .insert k _ => k.toList | .overwrite k _ => [k]
        | .update h _ => [h.id] | .delete h => [h.id] | .checkExists k => [k] | .checkCurrent h => [h.id]))
      (h : BadKey C.key k e) : BadOp op e
  | contents {op x e} (hx : x ∈ (match op with
        | .push x => [x] | .insert _ x => [x] | .overwrite _ x => [x] | .update _ x => [x] | _ => []))
      (h : BadContents C x e) : BadOp op e

/-- What a transaction answers and does to the maps: all of it, or nothing. -/
inductive AtomicSpec {ι : Type} (s : Schema) (Cs : ι → Coll) (K : KeyOrders Cs) (M : Maps Cs)
    (ops : List (AnyOp Cs)) : Except TErr (List OpResult) → Maps Cs → Prop
  | all {rs M'} (h : TxSpec s.digest Cs K M ops (.ok rs) M') : AtomicSpec s Cs K M ops (.ok rs) M'
  | refused {e M'} (h : TxSpec s.digest Cs K M ops (.error e) M') :
      AtomicSpec s Cs K M ops (.error (.db e)) M
  | bad {i op e} (hm : (⟨i, op⟩ : AnyOp Cs) ∈ ops) (h : BadOp op e) :
      AtomicSpec s Cs K M ops (.error e) M
  | rejected {i op e} (hm : (⟨i, op⟩ : AnyOp Cs) ∈ ops) (h : Rejected s (Cs i) e) :
      AtomicSpec s Cs K M ops (.error e) M
  | tooMany (h : ∃ l : List QName, l.Nodup ∧ 65536 < l.length ∧
      ∀ n ∈ l, ∃ o ∈ ops, n = (Cs o.1).name) : AtomicSpec s Cs K M ops (.error (.db .tooLarge)) M

/-- A history of transactions. -/
def runTxs {ι : Type} (s : Schema) (Cs : ι → Coll) :
    Db → List (Nat × List (AnyOp Cs)) → List (Except TErr (List OpResult)) × Db
  | db, [] => ([], db)
  | db, (tid, ops) :: ts =>
    let r := applyTx s Cs db tid ops
    let rest := runTxs s Cs r.2 ts
    (r.1 :: rest.1, rest.2)

/-- The history of the maps. -/
inductive AtomicSpecAll {ι : Type} (s : Schema) (Cs : ι → Coll) (K : KeyOrders Cs) :
    Maps Cs → List (Nat × List (AnyOp Cs)) → List (Except TErr (List OpResult)) → Maps Cs → Prop
  | nil (M) : AtomicSpecAll s Cs K M [] [] M
  | cons {M tid ops r M' ts rs M''} (h : AtomicSpec s Cs K M ops r M')
      (hs : AtomicSpecAll s Cs K M' ts rs M'') : AtomicSpecAll s Cs K M ((tid, ops) :: ts) (r :: rs) M''

/-- A family of different lawful collections. -/
structure LawfulFamily {ι : Type} (s : Schema) (Cs : ι → Coll) (K : KeyOrders Cs) : Prop where
  lawful : ∀ i, Lawful s (Cs i) (K.first i) (K.next i)
  distinct : ∀ i j, (Cs i).name = (Cs j).name → i = j

/-- The contents an operation writes are in the set. -/
def OpIn (S : Bytes → Prop) {C : Coll} (op : TOp C) : Prop :=
  ∀ x ∈ (match op with
    | .push x => [x] | .insert _ x => [x] | .overwrite _ x => [x] | .update _ x => [x] | _ => []),
    ∀ b, C.serialize x = some b → S b

end Bonsai.Typed
