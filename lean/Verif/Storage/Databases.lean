import Verif.Names.Namespaces

/-!
# Databases of a storage: creating, opening, deleting (model)

`crates/bonsaidb-local/src/storage.rs`.  Files are named by absolute paths; every database keeps its
files below `storage path / name` (`open_roots`).  Symbolic links are not modelled.
-/
set_option linter.unusedSimpArgs false
set_option linter.unusedSectionVars false

namespace Bonsai.Storage
open Bonsai Bonsai.Names

/-- An absolute path: its components. -/
abbrev Path := List (List Char)

/-- The parts of a string between slashes. -/
def splitSlash : List Char → List (List Char)
  | [] => [[]]
  | c :: cs =>
    if c = '/' then [] :: splitSlash cs
    else
      match splitSlash cs with
      | [] => [[c]]
      | h :: t => (c :: h) :: t

/-- How the operating system resolves one component (empty and `.`: stay; `..`: parent). -/
def resolveStep (p : Path) (comp : List Char) : Path :=
  if comp = [] ∨ comp = ['.'] then p else if comp = ['.', '.'] then p.dropLast else p ++ [comp]

/-- `Path::join` (std): an absolute name replaces the base; the result as the operating system
resolves it.  Used by `open_roots`, storage.rs:648, and `delete_database`, storage.rs:1025. -/
def join (base : Path) (name : String) : Path :=
  (splitSlash name.toList).foldl resolveStep (if name.toList.head? = some '/' then [] else base)

/-- `ADMIN_DATABASE_NAME`, crates/bonsaidb-core/src/admin/mod.rs:26. -/
def adminName : String := "_admin"

/-- The state of a storage: its directory, all files of the machine, the records in the admin
database's `Database` collection (unique by name, core/src/admin/database.rs:19-33), and the in-memory
`available_databases`, `open_roots` and registered `schemas` (storage.rs:232-262). -/
structure St (S : Type) where
  base : Path
  fs : Path → Option Bytes
  records : String → Option S
  available : String → Option S
  openRoots : String → Bool
  registered : S → Bool

/-- `f` with the value at `a` replaced. -/
def setAt {A B : Type} [DecidableEq A] (f : A → B) (a : A) (b : B) : A → B := fun x => if x = a then b else f x

/-- All files below `dir` get new contents. -/
def overlay (fs : Path → Option Bytes) (dir : Path) (new : Path → Option Bytes) : Path → Option Bytes :=
  fun q => if dir <+: q then new q else fs q

variable {S : Type} [DecidableEq S]

/-- Where a database keeps its files. -/
def St.dir (st : St S) (name : String) : Path := join st.base name

/-- `create_database_with_schema`, storage.rs:977-1010.  The record is written to the admin database:
`adm` are the new contents of its files. -/
def St.create (st : St S) (name : String) (schema : S) (onlyIfNeeded : Bool) (adm : Path → Option Bytes) :
    Bool × St S :=
  if validateName name then
    if st.registered schema then
      match st.available name with
      | none =>
        (true, { st with
          fs := overlay st.fs (st.dir adminName) adm
          records := setAt st.records name (some schema)
          available := setAt st.available name (some schema) })
      | some _ => (onlyIfNeeded, st)
    else (false, st)
  else (false, st)

/-- `database_without_schema`, storage.rs:684-724, and `open_roots`, storage.rs:641-669: the first
time, the files are opened (`new`: what is below the directory afterwards). -/
def St.open (st : St S) (name : String) (expected : Option S) (new : Path → Option Bytes) :
    Bool × St S :=
  match st.available name with
  | none => (false, st)
  | some schema =>
    if expected = none ∨ expected = some schema then
      if st.registered schema then
        if st.openRoots name then (true, st)
        else (true, { st with fs := overlay st.fs (st.dir name) new, openRoots := setAt st.openRoots name true })
      else (false, st)
    else (false, st)

/-- Reading and writing through a database handle: `nebari` only touches files below its directory
(external). -/
def St.use (st : St S) (name : String) (new : Path → Option Bytes) : St S :=
  { st with fs := overlay st.fs (st.dir name) new }

/-- `delete_database`, storage.rs:1017-1046.  The name is not validated; the directory is removed
before the record is looked up; `DatabaseNotFound` if there is no record. Removing a directory without
files is not visible in this model. -/
def St.delete (st : St S) (name : String) (adm : Path → Option Bytes) : Bool × St S :=
  let st := { st with available := setAt st.available name none, openRoots := setAt st.openRoots name false }
  let st := { st with fs := overlay st.fs (st.dir name) fun _ => none }
  match st.records name with
  | some _ =>
    (true, { st with fs := overlay st.fs (st.dir adminName) adm, records := setAt st.records name none })
  | none => (false, st)

/-- `Storage::open`, storage.rs:266-363, on an existing storage: `cache_available_databases`
(storage.rs:425-436); nothing is open. -/
def St.restart (st : St S) : St S :=
  { st with available := st.records, openRoots := fun _ => false }

/-- What can happen. -/
inductive Event (S : Type) where
  | create (name : String) (schema : S) (onlyIfNeeded : Bool) (adm : Path → Option Bytes)
  | open (name : String) (expected : Option S) (new : Path → Option Bytes)
  | use (name : String) (new : Path → Option Bytes)
  | delete (name : String) (adm : Path → Option Bytes)
  | restart

def St.next (st : St S) : Event S → St S
  | .create n s o a => (st.create n s o a).2
  | .open n e f => (st.open n e f).2
  | .use n f => st.use n f
  | .delete n a => (st.delete n a).2
  | .restart => st.restart

/-- A sequence of events; a handle can only be used for a database whose files are open. -/
inductive Run : St S → List (Event S) → St S → Prop where
  | nil (st) : Run st [] st
  | snoc {st st' es} (e : Event S) (h : Run st es st')
      (hu : ∀ n f, e = .use n f → st'.openRoots n = true) : Run st (es ++ [e]) (st'.next e)

/-- A storage without databases. -/
structure Fresh (st : St S) : Prop where
  records : ∀ n, st.records n = none
  available : ∀ n, st.available n = none
  openRoots : ∀ n, st.openRoots n = false

end Bonsai.Storage
