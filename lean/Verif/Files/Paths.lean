import Verif.Files.Model
import Verif.Key.Props

/-!
# Files: names and paths (model)

`crates/bonsaidb-files/src/schema/file.rs` (`create_file`, `find`, `list_path_contents`,
`list_recursive_path_contents`, the view `ByPath` and its key type `FileKey`) and
`crates/bonsaidb-files/src/direct.rs` (`FileBuilder`, `File::path`, `move_to`, `rename`, `children`).

Strings are lists of characters; their bytes are `utf8`.  A Rust test on the bytes of a string for the byte
`b'/'` is a test for the character `/` (UTF-8 uses bytes below 128 for ASCII characters only).
-/
set_option linter.unusedSimpArgs false
set_option linter.unusedSectionVars false

namespace Bonsai.Files
open Bonsai Bonsai.Names Bonsai.Store Bonsai.Query

/-- A Rust string. -/
abbrev Str := List Char

/-- `schema::file::File`, file.rs:28-41: the contents of a file document.  The metadata is kept serialized. -/
structure FileRec where
  path : Option Str
  name : Str
  created : BitVec 64
  metadata : Bytes
  deriving DecidableEq

/-- The serialization of file documents and of the values of `ByPath` (`pot`, external). -/
structure FileCodec where
  enc : FileRec → Bytes
  dec : Bytes → Option FileRec
  encValue : BitVec 64 × Bytes → Bytes
  decValue : Bytes → Option (BitVec 64 × Bytes)

/-- What is assumed of the serialization. -/
structure FileCodec.Lawful (k : FileCodec) : Prop where
  file : ∀ f, k.dec (k.enc f) = some f
  value : ∀ v, k.decValue (k.encValue v) = some v

/-- `File::containing_path`, direct.rs:526-528, and the path part of the view's key, file.rs:404. -/
def container (f : FileRec) : Str := f.path.getD ['/']

/-- "Force path to end with a /", file.rs:59-64 and direct.rs:585-590. -/
def forceSlash (p : Str) : Str := if p.getLast? = some '/' then p else p ++ ['/']

/-- `File::path`, direct.rs:536-549. -/
def fullPath (f : FileRec) : Str :=
  container f ++ (if (container f).getLast? = some '/' then [] else ['/']) ++ f.name

/-- `str::rsplit_once('/')` (std): split at the last `/`. -/
def rsplitOnce (s : Str) : Option (Str × Str) :=
  if '/' ∈ s then
    some (((s.reverse.dropWhile (· != '/')).drop 1).reverse, (s.reverse.takeWhile (· != '/')).reverse)
  else none

/-- The errors of this module: `Error`, lib.rs:478-496. -/
inductive FErr where
  | invalidName
  | invalidPath
  | db (e : Err)
  | key
  | panic
  deriving DecidableEq

/-- `FileBuilder`, direct.rs:597-608: the path and the name. -/
structure Builder where
  path : Option Str
  name : Str
  deriving DecidableEq

/-- `FileBuilder::new`, direct.rs:611-637.  The `unwrap` of `rsplit_once` cannot fail: the string starts with
`/`. -/
def Builder.new (s : Str) : Builder :=
  if s.head? = some '/' then
    let s := if s.getLast? = some '/' ∧ 1 < s.length then s.dropLast else s
    match rsplitOnce s with
    | none => ⟨none, s⟩
    | some (p, n) => ⟨if p = [] ∨ p = ['/'] then none else some p, n⟩
  else ⟨none, s⟩

/-- `FileBuilder::at_path`, direct.rs:641-644. -/
def Builder.atPath (b : Builder) (p : Str) : Builder := { b with path := some p }

/-- The file document `create_file` makes, file.rs:55-72. -/
def newFile (b : Builder) (now : BitVec 64) (metadata : Bytes) : Except FErr FileRec :=
  if '/' ∈ b.name ∨ b.name = [] then .error .invalidName
  else .ok ⟨b.path.map forceSlash, b.name, now, metadata⟩

/-- `move_to`, direct.rs:149-158 with `update_document_for_move`, 568-593: the new contents of the document.
The `unwrap` of `rsplit_once` cannot fail: the path starts with `/`. -/
def moved (f : FileRec) (p : Str) : Except FErr FileRec :=
  if p.head? ≠ some '/' then .error .invalidPath
  else if p.getLast? = some '/' then
    .ok { f with path := (if 1 < p.length then some p else none).map forceSlash }
  else match rsplitOnce p with
    | none => .error .panic
    | some (q, n) => .ok { f with path := (if q = [] then none else some q).map forceSlash, name := n }

/-- `rename`, direct.rs:161-172: the new contents of the document. -/
def renamed (f : FileRec) (n : Str) : Except FErr FileRec :=
  if '/' ∈ n then .error .invalidName else .ok { f with name := n }

/-! ## Keys of the view -/

/-- `FileKey::Full`, file.rs:540-545: the composite key of path and name. -/
def keyBytes (p n : Str) : Option Bytes :=
  encodeComposite .escape [stringKey, stringKey] (String.ofList p, String.ofList n, ())

/-- `OwnedFileKey::from_ord_bytes`, file.rs:490-502. -/
def decodeKey (b : Bytes) : Option (Str × Str) :=
  match decodeComposite .escape [stringKey, stringKey] b with
  | .ok (p, n, ()) => some (p.toList, n.toList)
  | _ => none

/-- `FileKey::ExactPathPart`, file.rs:546-565: the bytes of the path as they are, a `/` when there is none at
the end, and a 0 or a 1. -/
def exactBound (p : Str) (start : Bool) : Bytes :=
  utf8 p ++ (if p.getLast? = some '/' then [] else [47]) ++ [if start then 0 else 1]

/-- `next_string_sequence`, bonsaidb-utils lib.rs:3-25: empty when there is no next string. -/
def nextSeq (p : Str) : Str :=
  match nextStrRev p.reverse with
  | some q => q.reverse
  | none => []

/-- `FileKey::RecursivePathPart`, file.rs:566-575: a composite key of one string. -/
def recBound (p : Str) (start : Bool) : Option Bytes :=
  encodeComposite .escape [stringKey] (String.ofList (if start then p else nextSeq p), ())

/-- The unique view `ByPath`, file.rs:391-408.  Documents that cannot be decoded and keys that cannot be
encoded are errors of `map`; `reduce` is not implemented (the default). -/
def byPath (cfg : Cfg) (k : FileCodec) : View where
  name := ⟨cfg.files, "by-path"⟩
  policy := .unique
  version := 3
  map d := (k.dec d.contents).bind fun f =>
    (keyBytes (container f) f.name).map fun b => [(b, k.encValue (f.created, f.metadata))]
  reduce _ _ := .unimplemented

/-! ## Queries -/

/-- A file as the queries return it: the header and the contents. -/
abbrev Found := Header × FileRec

/-- One step of `convert_mappings_to_documents`, file.rs:432-456. -/
def foundOf (k : FileCodec) (m : Mapped) : Option Found :=
  (decodeKey m.key).bind fun (p, n) =>
    (k.decValue m.value).map fun (c, md) =>
      (m.source, ⟨if p = ['/'] then none else some p, n, c, md⟩)

/-- `list_path_contents`, file.rs:185-198, from the view's tree.  `none`: a key or value could not be
decoded. -/
def list (k : FileCodec) (es : OMap ViewEntry) (p : Str) : Option (List Found) :=
  (queryByName es (some (.range ⟨.included (exactBound p true), .excluded (exactBound p false)⟩)) .ascending
    none).mapM (foundOf k)

/-- `list_recursive_path_contents`, file.rs:217-230.  `none`: a bound could not be encoded, a key or a value
not be decoded. -/
def listRecursive (k : FileCodec) (es : OMap ViewEntry) (p : Str) : Option (List Found) :=
  (recBound p true).bind fun a => (recBound p false).bind fun b =>
    (queryByName es (some (.range ⟨.included a, .excluded b⟩)) .ascending none).mapM (foundOf k)

/-- The path and the name `find` looks for, file.rs:116-139. -/
def findKey (s : Str) : Except FErr (Str × Str) :=
  if s = [] then .error .invalidPath
  else
    let s := if s.getLast? = some '/' then s.dropLast else s
    match rsplitOnce s with
    | none => .ok (['/'], s)
    | some (p, n) => .ok (p ++ ['/'], n)

/-- `find`, file.rs:112-145; `load`, direct.rs:79-86. -/
def find (k : FileCodec) (es : OMap ViewEntry) (s : Str) : Except FErr (Option Found) :=
  match findKey s with
  | .error e => .error e
  | .ok (p, n) =>
    match keyBytes p n with
    | none => .error .key
    | some b =>
      match (queryByName es (some (.matches_ b)) .ascending none).mapM (foundOf k) with
      | none => .error .key
      | some l => .ok l.head?

/-- `children`, direct.rs:129-140. -/
def children (k : FileCodec) (es : OMap ViewEntry) (f : FileRec) : Option (List Found) := list k es (fullPath f)

/-! ## Operations on the database -/

/-- The first transaction of `create_file`, file.rs:66-74 (`push_into`): inserting the document.  Returns the
header. -/
def pushFile (s : Schema) (cfg : Cfg) (k : FileCodec) (f : FileRec) (tid : Nat) (db : Db) :
    Except FErr Header × Db :=
  match applyToRoots s db tid [⟨cfg.files, .insert none (k.enc f)⟩] with
  | (.ok [.updated _ h], db) => (.ok h, db)
  | (.ok _, db) => (.error .panic, db)
  | (.error e, db) => (.error (.db e), db)

/-- `doc.update(&database)` of `move_to` and `rename`, direct.rs:161-172 and 169. -/
def storeFile (s : Schema) (cfg : Cfg) (k : FileCodec) (h : Header) (f : FileRec) (tid : Nat) (db : Db) :
    Except FErr Header × Db :=
  match applyToRoots s db tid [⟨cfg.files, .update h (k.enc f)⟩] with
  | (.ok [.updated _ h], db) => (.ok h, db)
  | (.ok _, db) => (.error .panic, db)
  | (.error e, db) => (.error (.db e), db)

/-- `FileBuilder::create`, direct.rs:659-670 with `create_file`, file.rs:48-77: two transactions with the ids
`tid` and `tid'`. -/
def createFile (s : Schema) (cfg : Cfg) (k : FileCodec) (b : Builder) (data metadata : Bytes) (now now' : BitVec 64)
    (tid tid' : Nat) (db : Db) : Except FErr Found × Db :=
  match newFile b now metadata with
  | .error e => (.error e, db)
  | .ok f =>
    match pushFile s cfg k f tid db with
    | (.error e, db) => (.error e, db)
    | (.ok h, db) =>
      match append s cfg data (fromBE h.id) now' tid' db with
      | (.error e, db) => (.error (.db e), db)
      | (.ok (), db) => (.ok (h, f), db)

/-- `move_to`, direct.rs:149-158. -/
def moveTo (s : Schema) (cfg : Cfg) (k : FileCodec) (x : Found) (p : Str) (tid : Nat) (db : Db) :
    Except FErr Found × Db :=
  match moved x.2 p with
  | .error e => (.error e, db)
  | .ok f =>
    match storeFile s cfg k x.1 f tid db with
    | (.error e, db) => (.error e, db)
    | (.ok h, db) => (.ok (h, f), db)

/-- `rename`, direct.rs:161-172. -/
def rename (s : Schema) (cfg : Cfg) (k : FileCodec) (x : Found) (n : Str) (tid : Nat) (db : Db) :
    Except FErr Found × Db :=
  match renamed x.2 n with
  | .error e => (.error e, db)
  | .ok f =>
    match storeFile s cfg k x.1 f tid db with
    | (.error e, db) => (.error e, db)
    | (.ok h, db) => (.ok (h, f), db)

/-! ## Specification -/

/-- A file is stored in the collection `m` of file documents. -/
def IsFile (k : FileCodec) (m : OMap Document) (h : Header) (f : FileRec) : Prop :=
  ∃ id d, m.get id = some d ∧ d.header = h ∧ k.dec d.contents = some f

/-- The tree of the view is up to date with the documents. -/
def UpToDate (v : View) (es : OMap ViewEntry) (m : OMap Document) : Prop :=
  ViewWF es ∧ ∀ id, Shows v es id (m.get id)

end Bonsai.Files
