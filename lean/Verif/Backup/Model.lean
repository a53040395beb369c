import Verif.KV.C42
import Verif.Store.Run
import Verif.Names.DocId
import Verif.Names.Namespaces

/-!
# Backup and restore (model)

`crates/bonsaidb-local/src/storage/backup.rs`.  A backup location is any implementation of
`BackupLocation`; what it is assumed to do (`Loc`, `ListsStored`, `ListsDatabases`) is what the trait's
documentation says.  The implementation for file system paths is in the second part.

Names are given by their UTF-8 bytes.  The handle is unrestricted.  The `Database` collection of the admin
database is represented by the set of databases itself (`Storage`); restoring skips it (backup.rs:139-147).
-/
set_option linter.unusedSimpArgs false
set_option linter.unusedSectionVars false

namespace Bonsai.Backup
open Bonsai Bonsai.Names

variable {F : Type} [KV.FloatOps F]

/-- `pot::to_vec` and `pot::from_slice` of key-value entries (external). -/
structure Pot (F : Type) where
  enc : KV.Entry F → Bytes
  dec : Bytes → Option (KV.Entry F)

/-- What is assumed of `pot`. -/
def LawfulPot (p : Pot F) : Prop := ∀ e, p.dec (p.enc e) = some e

/-- What `BackupLocation::store` is told, backup.rs:21-29. -/
structure Addr where
  schema : QName
  database : String
  container : Bytes
  name : Bytes
  deriving DecidableEq

/-- The contents of a location. -/
abbrev Loc := List (Addr × Bytes)

/-- `BackupLocation::store`. -/
def Loc.store (l : Loc) (a : Addr) (o : Bytes) : Loc := (a, o) :: l.filter fun p => p.1 ≠ a

/-- `BackupLocation::load`. -/
def Loc.load (l : Loc) (a : Addr) : Option Bytes := (l.find? fun p => p.1 == a).map (·.2)

/-- An answer of `BackupLocation::list_stored`: the stored names, in any order. -/
def ListsStored (l : Loc) (s : QName) (d : String) (c : Bytes) (names : List Bytes) : Prop :=
  names.Nodup ∧ ∀ n, n ∈ names ↔ (l.load ⟨s, d, c, n⟩).isSome

/-- The answers of `list_schemas` and `list_databases` together. -/
def ListsDatabases (l : Loc) (dbs : List (QName × String)) : Prop :=
  dbs.Nodup ∧ ∀ s d, (s, d) ∈ dbs ↔ ∃ c n, (l.load ⟨s, d, c, n⟩).isSome

/-- `"._key._"`. -/
def marker : Bytes := [46, 95, 107, 101, 121, 46, 95]

/-- `"_kv"`. -/
def kvContainer : Bytes := [95, 107, 118]

/-- `str::split_once("._key._")` (std): at the first occurrence. -/
def splitMarker : Bytes → Option (Bytes × Bytes)
  | [] => none
  | b :: r =>
    if marker.isPrefixOf (b :: r) then some ([], (b :: r).drop marker.length)
    else (splitMarker r).map fun p => (b :: p.1, p.2)

/-- A database: its schema, documents and key-value store. -/
structure Database (F : Type) where
  schemaName : QName
  schema : Store.Schema
  docs : Store.Db
  kv : KV.St F

/-- A new database. -/
def Database.new (sn : QName) (s : Store.Schema) (now : Nat) : Database F :=
  ⟨sn, s, .empty, .new .immediate now .empty []⟩

/-- `admin::Database::collection_name`, core/src/admin/database.rs:8-9. -/
def databaseCollection : QName := ⟨"bonsaidb", "databases"⟩

/-- What is stored for one collection, backup.rs:101-119 (`list_from_collection` returns all documents, C35). -/
def docObjects (name : String) (d : Database F) (c : QName) : List (Addr × Bytes) :=
  (d.docs.trees.docs c).list.map fun p =>
    (⟨d.schemaName, name, encodeQ c, DocId.display p.2.header.id⟩, p.2.contents)

/-- What is stored for the key-value entries, backup.rs:120-129; `split_key` (keyvalue.rs:137-148) does not
fail on keys made by `full_key`. -/
def kvObjects (pot : Pot F) (name : String) (d : Database F) : List (Addr × Bytes) :=
  d.kv.entries.list.filterMap fun p =>
    (splitNull p.1).map fun q =>
      (⟨d.schemaName, name, kvContainer, q.1 ++ marker ++ q.2⟩, pot.enc p.2)

/-- The calls of `store` by `backup_database`, backup.rs:100-135: the key-value entries are stored inside the
loop over the collections. -/
def objects (pot : Pot F) (name : String) (d : Database F) : List (Addr × Bytes) :=
  d.schema.collections.flatMap fun c => docObjects name d c ++ kvObjects pot name d

/-- Several calls of `store`. -/
def Loc.stores (l : Loc) (os : List (Addr × Bytes)) : Loc := os.foldl (fun l p => l.store p.1 p.2) l

/-- The databases of a storage. -/
abbrev Storage (F : Type) := List (String × Database F)

/-- `Storage::backup`, backup.rs:54-75, into a location. -/
def backup (pot : Pot F) (σ : Storage F) (l : Loc) : Loc :=
  σ.foldl (fun l p => l.stores (objects pot p.1 p.2)) l

/-- The operations of `restore_database`, backup.rs:138-163.  `listing` is what `list_stored` returns for a
container.  Names that do not parse are skipped.  (`load` cannot fail for a listed name.) -/
def restoreOps (l : Loc) (name : String) (d : Database F) (listing : Bytes → List Bytes) :
    List Store.Operation :=
  (d.schema.collections.filter fun c => c ≠ databaseCollection).flatMap fun c =>
    (listing (encodeQ c)).filterMap fun n =>
      (DocId.parse n).bind fun id =>
        (l.load ⟨d.schemaName, name, encodeQ c, n⟩).map fun contents => ⟨c, .insert (some id) contents⟩

/-- The command of `Entry::restore`, keyvalue.rs:37-55. -/
def restoreCommand (ns key : Bytes) (e : KV.Entry F) : KV.KeyOp F :=
  ⟨ns ++ 0 :: key, .set ⟨e.value, e.expiration, false, none, false⟩⟩

/-- The loop over the key-value entries, backup.rs:166-178; `ck` is the clock when a name is restored.
`false`: an error was returned. -/
def restoreKv (pot : Pot F) (l : Loc) (sn : QName) (name : String) (ck : Bytes → KV.Clock) :
    List Bytes → KV.St F → Bool × KV.St F
  | [], st => (true, st)
  | n :: ns, st =>
    match splitMarker n with
    | none => restoreKv pot l sn name ck ns st
    | some (space, key) =>
      match (l.load ⟨sn, name, kvContainer, n⟩).bind pot.dec with
      | none => (false, st)
      | some e =>
        match st.perform (ck n) (restoreCommand space key e) with
        | (.error _, st) => (false, st)
        | (.ok _, st) => restoreKv pot l sn name ck ns st

/-- `restore_database`, backup.rs:134-181. -/
def restoreDatabase (pot : Pot F) (l : Loc) (name : String) (listing : Bytes → List Bytes) (tid : Nat)
    (ck : Bytes → KV.Clock) (d : Database F) : Bool × Database F :=
  match Store.applyToRoots d.schema d.docs tid (restoreOps l name d listing) with
  | (.error _, docs) => (false, { d with docs := docs })
  | (.ok _, docs) =>
    let r := restoreKv pot l d.schemaName name ck (listing kvContainer) d.kv
    (r.1, { d with docs := docs, kv := r.2 })

/-- The database with a name. -/
def Storage.get (σ : Storage F) (name : String) : Option (Database F) :=
  (σ.find? fun p => p.1 == name).map (·.2)

/-- Replace a database. -/
def Storage.put (σ : Storage F) (name : String) (d : Database F) : Storage F :=
  (name, d) :: σ.filter fun p => p.1 ≠ name

/-- What varies between executions of a restore: the order of listings, transaction ids, clocks. -/
structure Env where
  listing : QName → String → Bytes → List Bytes
  tid : String → Nat
  clock : String → Bytes → KV.Clock
  created : String → Nat

/-- `Storage::restore`, backup.rs:77-98, with `create_database_with_schema` (storage.rs:977-1010) creating
the database if it does not exist; `registered` are the schemas of the storage. -/
def restore (pot : Pot F) (registered : QName → Option Store.Schema) (env : Env) (l : Loc) :
    List (QName × String) → Storage F → Bool × Storage F
  | [], σ => (true, σ)
  | (sn, name) :: dbs, σ =>
    if validateName name then
      match registered sn with
      | none => (false, σ)
      | some s =>
        let d := (σ.get name).getD (.new sn s (env.created name))
        let r := restoreDatabase pot l name (env.listing d.schemaName name) (env.tid name) (env.clock name) d
        if r.1 then restore pot registered env l dbs (σ.put name r.2) else (false, σ.put name r.2)
    else (false, σ)

/-! ## `BackupLocation for Path` -/

/-- An absolute path: its components. -/
abbrev Path := List Bytes

/-- The parts of a name between slashes. -/
def splitSlash : Bytes → List Bytes
  | [] => [[]]
  | c :: cs =>
    if c = 47 then [] :: splitSlash cs
    else
      match splitSlash cs with
      | [] => [[c]]
      | h :: t => (c :: h) :: t

/-- How the operating system resolves one component. -/
def resolveStep (p : Path) (comp : Bytes) : Path :=
  if comp = [] ∨ comp = [46] then p else if comp = [46, 46] then p.dropLast else p ++ [comp]

/-- `Path::join` (std), resolved by the operating system (no symbolic links). -/
def join (base : Path) (name : Bytes) : Path :=
  (splitSlash name).foldl resolveStep (if name.head? = some 47 then [] else base)

/-- The directories and files of the machine. -/
structure Fs where
  dirs : Path → Bool
  files : Path → Option Bytes

/-- `std::fs::create_dir_all`: fails if a file is in the way. -/
def Fs.createDirAll (fs : Fs) (p : Path) : Option Fs :=
  if (List.range (p.length + 1)).any fun i => (fs.files (p.take i)).isSome then none
  else some { fs with dirs := fun q => fs.dirs q || q.isPrefixOf p }

/-- `std::fs::write`: the parent must be a directory, the path must not be one.  (Lengths of file names are
not limited in the model.) -/
def Fs.write (fs : Fs) (p : Path) (o : Bytes) : Option Fs :=
  if p ≠ [] ∧ fs.dirs p.dropLast = true ∧ fs.dirs p = false then
    some { fs with files := fun q => if q = p then some o else fs.files q }
  else none

/-- `container_folder`, backup.rs:433-440. -/
def folder (base : Path) (s : QName) (d : String) (c : Bytes) : Path :=
  join (join (join base (encodeQ s)) (strBytes d)) c

/-- `store`, backup.rs:269-282. -/
def Fs.store (fs : Fs) (base : Path) (a : Addr) (o : Bytes) : Option Fs :=
  (fs.createDirAll (folder base a.schema a.database a.container)).bind fun fs =>
    fs.write (join (folder base a.schema a.database a.container) a.name) o

/-- `load`, backup.rs:319-327. -/
def Fs.load (fs : Fs) (base : Path) (a : Addr) : Option Bytes :=
  fs.files (join (folder base a.schema a.database a.container) a.name)

/-- Whether `list_stored` returns a name, backup.rs:299-317. -/
def Fs.listsStored (fs : Fs) (base : Path) (s : QName) (d : String) (c n : Bytes) : Prop :=
  (fs.files (folder base s d c ++ [n])).isSome

/-- Whether `list_schemas` and `list_databases` return a schema and a database, backup.rs:279-297: the
directory `_kv` is skipped. -/
def Fs.listsDatabase (fs : Fs) (base : Path) (s : QName) (d : String) : Prop :=
  fs.dirs (base ++ [encodeQ s]) = true ∧ fs.dirs (base ++ [encodeQ s] ++ [strBytes d]) = true ∧ strBytes d ≠ kvContainer

end Bonsai.Backup
