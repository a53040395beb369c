import Verif.Schema.Model

/-!
# Summaries of schemas (model)

`crates/bonsaidb-core/src/schema/summary.rs` and `list_available_schemas`, `crates/bonsaidb-local/src/storage.rs:1059-1073`.
-/
set_option linter.unusedSimpArgs false
set_option linter.unusedVariables false

namespace Bonsai.Schm
open Bonsai Bonsai.Names Bonsai.Store

/-- `ViewSummary`, summary.rs:93-112; `K` stands for key descriptions (modelled in `Key/Describe.lean`). -/
structure ViewSummary (K : Type) where
  name : VName
  key : K
  policy : Policy
  version : Nat

/-- `CollectionSummary`, summary.rs:72-80; the description of the primary key is a number, as in `CollDef`. -/
structure CollSummary (K : Type) where
  name : QName
  primaryKey : Nat
  views : List (VName × ViewSummary K)

/-- summary.rs:54-65: every view of a collection is inserted.  `kd` is `view.key_description()`, schematic.rs:246-248;
`none` is its panic. -/
def addViews {K : Type} (kd : View → Option K) : List View → List (VName × ViewSummary K) → Option (List (VName × ViewSummary K))
  | [], m => some m
  | v :: vs, m => (kd v).bind fun k => addViews kd vs (put m v.name ⟨v.name, k, v.policy, v.version⟩)

/-- `entry(name).or_insert_with(..)`, summary.rs:43-53; `none` is the panic of `expect`. -/
def entryFor {K : Type} (s : Schematic) (m : List (QName × CollSummary K)) (c : QName) : Option (CollSummary K) :=
  match find m c with
  | some e => some e
  | none => (s.description c).map fun d => ⟨c, d, []⟩

/-- The loop, summary.rs:42-66. -/
def addCollections {K : Type} (s : Schematic) (kd : View → Option K) :
    List QName → List (QName × CollSummary K) → Option (List (QName × CollSummary K))
  | [], m => some m
  | c :: cs, m =>
    (entryFor s m c).bind fun e =>
      (addViews kd (s.viewsIn c) e.views).bind fun vs => addCollections s kd cs (put m c { e with views := vs })

/-- `SchemaSummary`, summary.rs:16-21. -/
structure SchemaSummary (K : Type) where
  name : QName
  collections : List (QName × CollSummary K)

/-- `impl From<&Schematic> for SchemaSummary`, summary.rs:36-70; `none` is a panic. -/
def summarize {K : Type} (kd : View → Option K) (name : QName) (s : Schematic) : Option (SchemaSummary K) :=
  (addCollections s kd s.collections []).map fun m => ⟨name, m⟩

/-- `SchemaSummary::collection`, summary.rs:23-28. -/
def SchemaSummary.collection {K : Type} (s : SchemaSummary K) (n : QName) : Option (CollSummary K) := find s.collections n

/-- `CollectionSummary::view`, summary.rs:82-87. -/
def CollSummary.view {K : Type} (c : CollSummary K) (n : VName) : Option (ViewSummary K) := find c.views n

/-- `Itertools::unique`: the first of each. -/
def unique : List QName → List QName
  | [] => []
  | a :: l => a :: (unique l).filter (· ≠ a)

/-- The closure of `filter_map` over several names; `none` is a panic. -/
def summarizeAll {K : Type} (kd : View → Option K) (schemas : List (QName × Schematic)) :
    List QName → Option (List (SchemaSummary K))
  | [] => some []
  | n :: ns =>
    match find schemas n with
    | none => summarizeAll kd schemas ns
    | some s => (summarize kd n s).bind fun x => (summarizeAll kd schemas ns).map fun xs => x :: xs

/-- `list_available_schemas`, storage.rs:1059-1073: `available` is `available_databases` (database name and schema
name), `schemas` the schemas registered with the storage. -/
def listAvailableSchemas {K : Type} (kd : View → Option K) (available : List (String × QName))
    (schemas : List (QName × Schematic)) : Option (List (SchemaSummary K)) :=
  summarizeAll kd schemas (unique (available.map (·.2)))

end Bonsai.Schm
