import Verif.Store.C25
import Verif.Names.DocId

/-!
# Records of earlier versions (model)

`crates/bonsaidb-local/src/database/compat.rs` (executed transactions) and `deserialize_document`,
`crates/bonsaidb-local/src/database.rs:956-989`.  The external codecs are functions: `pot`, `bincode` and the version
header of `transmog-versions`.
-/
set_option linter.unusedSimpArgs false
set_option linter.unusedVariables false

namespace Bonsai.Store
open Bonsai Bonsai.Names

/-- `ChangedKey`, core transaction.rs: namespace, key, deleted. -/
structure ChangedKey where
  ns : Option String
  key : String
  deleted : Bool
  deriving DecidableEq

/-- `Changes`, core transaction.rs:418-425. -/
inductive AnyChanges where
  | documents (c : Changes)
  | keys (ks : List ChangedKey)
  deriving DecidableEq

/-- `LegacyDocumentId`, compat.rs:138-143. -/
inductive LegacyDocumentId where
  | u64 (n : BitVec 64)
  | document (b : Bytes)
  deriving DecidableEq

/-- `ChangedDocumentV0`, compat.rs:124-136. -/
structure ChangedDocumentV0 where
  collection : QName
  id : LegacyDocumentId
  deleted : Bool

/-- `ChangesV0`, compat.rs:79-86. -/
inductive ChangesV0 where
  | documents (ds : List ChangedDocumentV0)
  | keys (ks : List ChangedKey)

/-- `DocumentId::try_from(LegacyDocumentId)`, compat.rs:145-154 over core document/id.rs:200-210 and 248-250. -/
def LegacyDocumentId.toId : LegacyDocumentId → Option Bytes
  | .document b => if b.length ≤ DocId.MAX_LENGTH then some b else none
  | .u64 n => some (toBE 8 n.toNat)

/-- `collection_indexes.get(&changed.collection)` or a new index, compat.rs:98-105; `none` is the panic of `unwrap`.
The map holds the position of each collection in `collections`. -/
def legacyIndex (cols : List QName) (c : QName) : Option (Nat × List QName) :=
  match cols.idxOf? c with
  | some i => some (i, cols)
  | none => if cols.length ≤ 65535 then some (cols.length, cols ++ [c]) else none

/-- The loop of `Changes::try_from(ChangesV0)`, compat.rs:97-111. -/
def convertDocs : Changes → List ChangedDocumentV0 → Res Changes
  | ch, [] => .ok ch
  | ch, d :: ds =>
    match legacyIndex ch.collections d.collection with
    | none => .panic
    | some (i, cols) =>
      match d.id.toId with
      | none => .err
      | some id => convertDocs ⟨cols, ch.documents ++ [⟨i, id, d.deleted⟩]⟩ ds

/-- `Changes::try_from(ChangesV0)`, compat.rs:88-122. -/
def ChangesV0.convert : ChangesV0 → Res AnyChanges
  | .documents ds => (convertDocs ⟨[], []⟩ ds).map .documents
  | .keys ks => .ok (.keys ks)

/-- What `pot::from_slice` answers: `NotAPot` is told apart from other errors. -/
inductive PotRes (α : Type) where
  | ok (a : α)
  | notAPot
  | err

/-- The external codecs. -/
structure LogCodec where
  /-- `transmog_versions::write_header` -/
  header : Nat → Bytes
  /-- `transmog_versions::unwrap_version`: version 0 when there is no header. -/
  unwrap : Bytes → Nat × Bytes
  /-- `pot::to_writer`, `pot::from_slice` of `Changes` -/
  potEnc : AnyChanges → Bytes
  potDec : Bytes → Option AnyChanges
  /-- `pot::from_slice::<ChangesV0>` -/
  potV0 : Bytes → PotRes ChangesV0
  /-- `bincode::deserialize::<Vec<ChangedDocumentV0>>` -/
  bincodeV0 : Bytes → Option (List ChangedDocumentV0)

/-- What is assumed of them: what was written is read. -/
structure LogCodec.Lawful (C : LogCodec) : Prop where
  unwrap_header : ∀ v b, C.unwrap (C.header v ++ b) = (v, b)
  pot : ∀ c, C.potDec (C.potEnc c) = some c

/-- compat.rs:61-65. -/
def LogCodec.legacy (C : LogCodec) (data : Bytes) : Option ChangesV0 :=
  match C.potV0 data with
  | .ok c => some c
  | .notAPot => (C.bincodeV0 data).map .documents
  | .err => none

/-- `deserialize_executed_transaction_changes`, compat.rs:57-70. -/
def LogCodec.read (C : LogCodec) (data : Bytes) : Res AnyChanges :=
  match (C.unwrap data).1 with
  | 0 =>
    match C.legacy (C.unwrap data).2 with
    | none => .err
    | some v0 => v0.convert
  | 1 =>
    match C.potDec (C.unwrap data).2 with
    | none => .err
    | some c => .ok c
  | _ => .err

/-- `serialize_executed_transaction_changes`, compat.rs:72-77. -/
def LogCodec.write (C : LogCodec) (c : AnyChanges) : Bytes := C.header 1 ++ C.potEnc c

/-- `DocumentChanges::get`, core transaction.rs:464-470. -/
def Changes.get (ch : Changes) (i : Nat) : Option (QName × ChangedDocument) :=
  match ch.documents[i]? with
  | none => none
  | some d =>
    match ch.collections[d.collection]? with
    | none => none
    | some c => some (c, d)

/-- `DocumentChangesIter::next`, core transaction.rs:512-520; `usize` does not overflow within a vector. -/
def Changes.iterNext (ch : Changes) (i : Nat) : Option ((QName × ChangedDocument) × Nat) :=
  match ch.get i with
  | none => none
  | some r => some (r, i + 1)

/-- The first `fuel` items of the iterator at position `i`. -/
def Changes.iterFrom (ch : Changes) : (fuel i : Nat) → List (QName × ChangedDocument)
  | 0, _ => []
  | fuel + 1, i =>
    match ch.iterNext i with
    | none => []
    | some (r, j) => r :: ch.iterFrom fuel j

/-- Collecting `DocumentChangesIntoIter`, core transaction.rs:530-540: stops at an index that is not valid. -/
def intoIter (cols : List QName) : List ChangedDocument → List (QName × ChangedDocument)
  | [] => []
  | d :: ds =>
    match cols[d.collection]? with
    | none => []
    | some c => (c, d) :: intoIter cols ds

/-- The result of decoding a page: the first that cannot be read decides (`collect::<Result<_, _>>`). -/
def decodePage (read : Bytes → Res AnyChanges) : List (Nat × Bytes) → Res (List (Nat × AnyChanges))
  | [] => .ok []
  | (i, b) :: es =>
    match read b with
    | .err => .err
    | .panic => .panic
    | .ok c => (decodePage read es).map ((i, c) :: ·)

/-- `list_executed_transactions`, database.rs:1010-1063, over the stored bytes: the scan, modelled by `listExecuted`,
and then the decoding, 1043-1057. -/
def LogCodec.list (C : LogCodec) (log : List (Nat × Option Bytes)) (start limit : Option Nat) :
    Res (List (Nat × AnyChanges)) :=
  decodePage C.read (listExecuted log start limit)

/-- `LegacyDocument`, database.rs:956-966. -/
structure LegacyDocument where
  id : BitVec 64
  revision : Revision
  contents : Bytes

/-- `pot` for documents, and `bincode` for those of earlier versions. -/
structure DocCodec where
  potEnc : Document → Bytes
  potDec : Bytes → Option Document
  bincodeDec : Bytes → Option LegacyDocument

/-- `deserialize_document`, database.rs:968-983. -/
def DocCodec.read (C : DocCodec) (b : Bytes) : Option Document :=
  match C.potDec b with
  | some d => some d
  | none =>
    match C.bincodeDec b with
    | none => none
    | some l => some ⟨⟨toBE 8 l.id.toNat, l.revision⟩, l.contents⟩

end Bonsai.Store
