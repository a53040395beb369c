/-!
# Schemas that a storage knows (model)

`crates/bonsaidb-local/src/config.rs:138-146`, `storage.rs:361-363, 442-452, 497-513, 684-722, 917-948, 983-1010,
1012-1015, 1060-1073`, `database.rs:128-156`; server: `server.rs:162`, `config.rs:208-211`.

A Rust type of a schema is a number, and `nameOf` its `Schema::schema_name()`: two types may have the same name.  Left out:
whether a schematic can be built (C78), names of databases and files (C46), permissions (C58), deletion of databases (C56),
the database for administration itself, which opening creates if it is missing.
-/
set_option linter.unusedSimpArgs false
set_option linter.unusedVariables false

namespace Bonsai.Registry

/-- A map from names of schemas to the types registered under them; `HashMap::insert`. -/
def insertTy (nameOf : Nat → String) (m : String → Option Nat) (t : Nat) : String → Option Nat :=
  fun n => if n = nameOf t then some t else m n

inductive Error where
  | schemaAlreadyRegistered (n : String)
  | schemaNotRegistered (n : String)
  | schemaMismatch
  | databaseNotFound
  | databaseNameAlreadyTaken
  deriving DecidableEq

structure St where
  /-- `schemas`, storage.rs:243. -/
  schemas : String → Option Nat
  /-- `available_databases`, storage.rs:244, in the order in which the map is iterated. -/
  databases : List (String × String)

/-- `StorageConfiguration::register_schema` for each type in turn, config.rs:139-145. -/
def configure (nameOf : Nat → String) (types : List Nat) : String → Option Nat :=
  types.foldl (insertTy nameOf) fun _ => none

/-- `Storage::register_schema`, storage.rs:498-513: the insertion comes first, and an error if it replaced something. -/
def St.register (nameOf : Nat → String) (st : St) (t : Nat) : Option Error × St :=
  (if (st.schemas (nameOf t)).isSome then some (.schemaAlreadyRegistered (nameOf t)) else none,
    { st with schemas := insertTy nameOf st.schemas t })

/-- `Storage::open`, storage.rs:345, 361-363, 442-452: the databases that are stored, then type `admin`. -/
def openStorage (nameOf : Nat → String) (admin : Nat) (types : List Nat) (stored : List (String × String)) :
    Except Error St :=
  match (St.mk (configure nameOf types) stored).register nameOf admin with
  | (none, st) => .ok st
  | (some e, _) => .error e

/-- A server's storage, server.rs:162, 208-211: type `hosted` is registered after the program's. -/
def openServer (nameOf : Nat → String) (admin hosted : Nat) (types : List Nat) (stored : List (String × String)) :
    Except Error St :=
  openStorage nameOf admin (types ++ [hosted]) stored

def St.schemaOf (st : St) (name : String) : Option String := (st.databases.find? fun d => d.1 = name).map Prod.snd

/-- `create_database_with_schema`, storage.rs:977-1010. -/
def St.create (st : St) (name schema : String) (onlyIfNeeded : Bool) : Except Error St :=
  if (st.schemas schema).isNone then .error (.schemaNotRegistered schema)
  else if (st.schemaOf name).isNone then .ok { st with databases := (name, schema) :: st.databases }
  else if onlyIfNeeded then .ok st
  else .error .databaseNameAlreadyTaken

/-- `database_without_schema`, storage.rs:684-722: the type by which the handle works, that of the opener
(storage.rs:943-947), whatever type the caller named. -/
def St.database (st : St) (name : String) (expected : Option String) : Except Error Nat :=
  match st.schemaOf name with
  | none => .error .databaseNotFound
  | some s =>
    if expected ≠ none ∧ expected ≠ some s then .error .schemaMismatch
    else match st.schemas s with
      | some t => .ok t
      | none => .error (.schemaNotRegistered s)

/-- `database::<DB>`, storage.rs:1012-1015. -/
def St.databaseAs (nameOf : Nat → String) (st : St) (t : Nat) (name : String) : Except Error Nat :=
  st.database name (some (nameOf t))

/-- `unique()`: the first of each. -/
def unique : List String → List String
  | [] => []
  | n :: l => n :: (unique l).filter fun m => m ≠ n

/-- `list_available_schemas`, storage.rs:1060-1073: the schematics whose summaries it gives. -/
def St.available (st : St) : List Nat := (unique (st.databases.map Prod.snd)).filterMap st.schemas

/-- What a program does. -/
inductive Op where
  | register (t : Nat)
  | create (name schema : String) (onlyIfNeeded : Bool)

def St.apply (nameOf : Nat → String) (st : St) : Op → St
  | .register t => (st.register nameOf t).2
  | .create n s o => match st.create n s o with
    | .ok st' => st'
    | .error _ => st

def St.run (nameOf : Nat → String) (st : St) (ops : List Op) : St := ops.foldl (St.apply nameOf) st

end Bonsai.Registry
