import Verif.Views.C33
import Verif.Store.C22

/-!
# Files: contents stored as blocks (model)

`crates/bonsaidb-files/src/schema/block.rs` and `schema/file.rs`.  Blocks and files are collections of the
modelled document engine; a view query is a query of the view's tree as in `Verif/Views/Query.lean`.

File ids are natural numbers below 2^32, timestamps 64-bit words.  `usize` has 64 bits.
-/
set_option linter.unusedSimpArgs false
set_option linter.unusedSectionVars false

namespace Bonsai.Files
open Bonsai Bonsai.Names Bonsai.Store Bonsai.Query

/-- `FileConfig`, lib.rs:72-90: the two collections and `BLOCK_SIZE`. -/
structure Cfg where
  files : QName
  blocks : QName
  size : Nat

/-- `slice::chunks` (std): pieces of `n`, the last one may be shorter.  (`n = 0` panics, see `append`.) -/
def chunks (n : Nat) (l : Bytes) : List Bytes :=
  if l = [] ∨ n = 0 then [] else l.take n :: chunks n (l.drop n)
termination_by l.length
decreasing_by
  rename_i h
  simp only [not_or] at h
  have : 0 < l.length := List.length_pos_iff.mpr h.1
  simp only [List.length_drop]
  omega

/-- The contents of a block document, block.rs:46-51: the chunk, the file's id and a timestamp. -/
def blockContents (chunk : Bytes) (fid : Nat) (ts : BitVec 64) : Bytes :=
  chunk ++ toBE 4 fid ++ toBE 8 ts.toNat

/-- The data of a block: `contents.truncate(len - 4 - 8)`, block.rs:103-104.  (The subtraction cannot
underflow for blocks made by `append`.) -/
def payload (d : Document) : Bytes := d.contents.take (d.contents.length - 12)

/-- The file a block belongs to, block.rs:294-298. -/
def owner (d : Document) : Nat := fromBE ((d.contents.drop (d.contents.length - 12)).take 4)

/-- The timestamp of a block, block.rs:300-302. -/
def stamp (d : Document) : BitVec 64 := BitVec.ofNat 64 (fromBE (d.contents.drop (d.contents.length - 8)))

/-- The operations of `Block::append`, block.rs:42-52. -/
def appendOps (cfg : Cfg) (data : Bytes) (fid : Nat) (now : BitVec 64) : List Operation :=
  ⟨cfg.files, .check (toBE 4 fid) none⟩ ::
    (chunks cfg.size data).map fun c => ⟨cfg.blocks, .insert none (blockContents c fid now)⟩

/-- `Block::append`, block.rs:31-57. -/
def append (s : Schema) (cfg : Cfg) (data : Bytes) (fid : Nat) (now : BitVec 64) (tid : Nat) (db : Db) :
    Except Err Unit × Db :=
  if data = [] then (.ok (), db)
  else if cfg.size = 0 then (.error .panic, db)
  else match applyToRoots s db tid (appendOps cfg data fid now) with
    | (.error e, db) => (.error e, db)
    | (.ok _, db) => (.ok (), db)

/-- `BlockAppendInfo`, block.rs:331-334. -/
structure AppendInfo where
  length : Nat
  timestamp : Option (BitVec 64)

/-- The serialization of view values (`pot`, external). -/
structure Codec where
  enc : AppendInfo → Bytes
  dec : Bytes → Option AppendInfo

/-- What is assumed of the serialization. -/
def Codec.Lawful (k : Codec) : Prop := ∀ i, k.dec (k.enc i) = some i

/-- `Iterator::max` of signed timestamps (std). -/
def maxStamp : List (BitVec 64) → Option (BitVec 64)
  | [] => none
  | t :: ts =>
    match maxStamp ts with
    | none => some t
    | some m => some (if t.toInt ≤ m.toInt then m else t)

/-- `ByFile::reduce`, block.rs:315-327. -/
def reduceInfos (is : List AppendInfo) : AppendInfo :=
  ⟨(is.map (·.length)).sum, maxStamp (is.filterMap (·.timestamp))⟩

/-- The view `ByFile`, block.rs:284-328 (lazy, the default policy; version 2).  Values that cannot be decoded
are an error of `reduce`. -/
def byFile (cfg : Cfg) (k : Codec) : View where
  name := ⟨cfg.blocks, "by-file"⟩
  policy := .lazy
  version := 2
  map d := some [(toBE 4 (owner d), k.enc ⟨(payload d).length, some (stamp d)⟩)]
  reduce ms _ :=
    match ms.mapM fun m => k.dec m.2 with
    | none => .error
    | some is => .ok (k.enc (reduceInfos is))

/-- `BlockInfo`, direct.rs:1191-1197: a block of a file as the reader knows it. -/
structure BlockInfo where
  header : Header
  offset : Nat
  length : Nat
  timestamp : Option (BitVec 64)
  deriving DecidableEq

/-- Insertion into a list sorted by document id. -/
def insertInfo (b : BlockInfo) : List BlockInfo → List BlockInfo
  | [] => [b]
  | x :: xs => if b.header.id = x.header.id ∨ b.header.id < x.header.id then b :: x :: xs else x :: insertInfo b xs

/-- `blocks.sort_by(|a, b| a.header.id.cmp(&b.header.id))`, block.rs:150.  The ids are `u64`s compared as
numbers, which is the order of their 8-byte big endian encodings (`C01`). -/
def sortInfos : List BlockInfo → List BlockInfo
  | [] => []
  | b :: bs => insertInfo b (sortInfos bs)

/-- The loop giving each block its offset, block.rs:151-155. -/
def setOffsets : Nat → List BlockInfo → List BlockInfo
  | _, [] => []
  | o, b :: bs => { b with offset := o } :: setOffsets (o + b.length) bs

/-- One mapping of the view, block.rs:143-148. -/
def infoOf (k : Codec) (m : Mapped) : Option BlockInfo :=
  (k.dec m.value).map fun i => ⟨m.source, 0, i.length, i.timestamp⟩

/-- `Block::for_file`, block.rs:134-157, from the view's tree.  `none`: a value could not be decoded. -/
def forFile (k : Codec) (es : OMap ViewEntry) (fid : Nat) : Option (List BlockInfo) :=
  ((queryByName es (some (.matches_ (toBE 4 fid))) .ascending none).mapM (infoOf k)).map fun bs =>
    setOffsets 0 (sortInfos bs)

/-- `Block::summary_for_file`, block.rs:159-167; `File::len` is its length (direct.rs:193-201). -/
def summary (cfg : Cfg) (k : Codec) (es : OMap ViewEntry) (fid : Nat) : Option AppendInfo :=
  match reduceByName (byFile cfg k) es (some (.matches_ (toBE 4 fid))) with
  | .ok b => k.dec b
  | _ => none

/-- `Truncate`, lib.rs:524-529. -/
inductive Truncate where
  | removingStart
  | removingEnd
  deriving DecidableEq

/-- The loop of `create_truncate_transaction` removing from the start, file.rs:323-342: the headers to
delete. -/
def dropBlocks : Nat → List BlockInfo → List Header
  | _, [] => []
  | remove, b :: bs =>
    if remove = 0 then []
    else if b.length ≤ remove then b.header :: dropBlocks (remove - b.length) bs
    else []

/-- `create_truncate_transaction`, file.rs:311-345. -/
def truncateOps (cfg : Cfg) (blocks : List BlockInfo) (newLength : Nat) (from_ : Truncate) : List Operation :=
  let total := (blocks.map (·.length)).sum
  let headers :=
    if newLength ≤ total then
      dropBlocks (total - newLength)
        (match from_ with | .removingStart => blocks | .removingEnd => blocks.reverse)
    else []
  headers.map fun h => ⟨cfg.blocks, .delete h⟩

/-- `File::truncate`, file.rs:295-309: the blocks were read before, the transaction runs now. -/
def truncate (s : Schema) (cfg : Cfg) (blocks : List BlockInfo) (newLength : Nat) (from_ : Truncate) (tid : Nat)
    (db : Db) : Except Err Unit × Db :=
  match applyToRoots s db tid (truncateOps cfg blocks newLength from_) with
  | (.error e, db) => (.error e, db)
  | (.ok _, db) => (.ok (), db)

/-- `Block::delete_for_file`, block.rs:234-243: the view was read before, the transaction runs now. -/
def deleteBlocks (s : Schema) (cfg : Cfg) (es : OMap ViewEntry) (fid : Nat) (tid : Nat) (db : Db) :
    Except Err Nat × Db :=
  deleteDocs s "" none cfg.blocks es (some (.matches_ (toBE 4 fid))) db tid

/-- What the schema of `FilesSchema`, schema.rs, says about the two collections: their primary keys are `u64`
and `u32`, the view of blocks is lazy. -/
structure HasFiles (s : Schema) (cfg : Cfg) : Prop where
  filesKnown : cfg.files ∈ s.collections
  blocksKnown : cfg.blocks ∈ s.collections
  apart : cfg.files ≠ cfg.blocks
  blockIds : s.nextId cfg.blocks = keyNextId (uintKey 8) (some (primFirst 8)) uintNext
  fileIds : s.nextId cfg.files = keyNextId (uintKey 4) (some (primFirst 4)) uintNext
  lazyBlocks : NoEager s cfg.blocks

/-! ## Specification -/

/-- The blocks of a file, in the order of their ids. -/
def blocksOf (m : OMap Document) (fid : Nat) : List Document :=
  (m.list.map (·.2)).filter fun d => owner d == fid

/-- The contents of a file. -/
def bytesOf (m : OMap Document) (fid : Nat) : Bytes := (blocksOf m fid).flatMap payload

/-- The contents of a file of a database. -/
def contents (cfg : Cfg) (db : Db) (fid : Nat) : Bytes := bytesOf (db.trees.docs cfg.blocks) fid

/-- The blocks are as `append` makes them: 8-byte ids, data of 1 to `BLOCK_SIZE` bytes. -/
def BlocksWF (cfg : Cfg) (m : OMap Document) : Prop :=
  ∀ id d, m.get id = some d →
    id.length = 8 ∧ d.header.id = id ∧ 12 ≤ d.contents.length ∧ payload d ≠ [] ∧ (payload d).length ≤ cfg.size

/-- The tree of a view is up to date with the documents: `current_of_exec` shows that this is what C29, C31 and
C33 establish for a query. -/
def Current (v : View) (es : OMap ViewEntry) (m : OMap Document) : Prop :=
  ViewWF es ∧ RedInv v es ∧ ∀ id, Shows v es id (m.get id)

end Bonsai.Files
