import Verif.Views.C32
import Verif.Store.Compat

/-!
# View versions, integrity scans and changing programs (model)

`crates/bonsaidb-local/src/views/integrity_scanner.rs`, `tasks.rs:128-170`, `database.rs:200-224` and `1158-1189`.

A database is used by one program after another; each has its own schema, in which a view may have another version,
another map function or policy, or be missing.  A program ends at any moment, also by a crash.  What survives are the
trees and the stored versions of the views.
-/
set_option linter.unusedSimpArgs false
set_option linter.unusedVariables false

namespace Bonsai.Store
open Bonsai Bonsai.Names

/-- `ViewVersion`, integrity_scanner.rs:137-141. -/
structure ViewVersion where
  internal : Nat
  schema : Nat
  deriving DecidableEq

/-- `pot` for `ViewVersion`. -/
structure VersionCodec where
  enc : ViewVersion → Bytes
  dec : Bytes → PotRes ViewVersion

/-- What is assumed of it: what was written is read. -/
def VersionCodec.Lawful (C : VersionCodec) : Prop := ∀ v, C.dec (C.enc v) = .ok v

/-- `ViewVersion::from_bytes`, integrity_scanner.rs:146-160. -/
def VersionCodec.fromBytes (C : VersionCodec) (b : Bytes) : Option ViewVersion :=
  match C.dec b with
  | .ok v => some v
  | .notAPot => if b.length = 8 then some ⟨0, fromBE b⟩ else none
  | .err => none

/-- `ViewVersion::current_for` with `CURRENT_VERSION`, integrity_scanner.rs:144 and 166-171. -/
def ViewVersion.currentFor (schema : Nat) : ViewVersion := ⟨3, schema⟩

/-- `ViewVersion::is_current`, integrity_scanner.rs:173-175. -/
def ViewVersion.isCurrent (v : ViewVersion) (schema : Nat) : Bool := v.internal == 3 && v.schema == schema

/-- The version the scanner finds, integrity_scanner.rs:63-66; `ViewVersion::default()` is version 0 of 0. -/
def VersionCodec.found (C : VersionCodec) (stored : Option Bytes) : ViewVersion :=
  (stored.bind C.fromBytes).getD ⟨0, 0⟩

/-- What the running program has done about a view: nothing yet; found it outdated (71); read the ids of all documents
(75); deleted the list of marks (79), the entries (80), the document map (81); committed the marks and the version
(89-104); marked the check complete (123-131). -/
inductive UPhase where
  | idle
  | outdated
  | read (ids : List Bytes)
  | noMarks (ids : List Bytes)
  | noEntries (ids : List Bytes)
  | wiped (ids : List Bytes)
  | stored
  | checked
  deriving DecidableEq

/-- The state of a database and of the program that uses it.  `versions` is the tree of view versions (by name: C15).
`torn` is ghost state: trees of the view were deleted and the transaction that marks its documents has not committed
since. -/
structure USys where
  trees : Trees
  versions : VName → Option Bytes
  schema : Schema
  phase : VName → UPhase
  torn : VName → Bool

/-- Mapping jobs of a view are started after its scan has committed (integrity_scanner.rs:106-120) or its check is
complete (tasks.rs:62-64). -/
def UPhase.mapped : UPhase → Prop
  | .stored => True
  | .checked => True
  | _ => False

/-- A transaction waits for the checks of the eager views of its collections, database.rs:1158-1182. -/
def USys.gate (σ : USys) (ops : List Operation) : Prop :=
  ∀ v ∈ σ.schema.views, v.policy.isEager = true → (∃ op ∈ ops, op.collection = v.name.collection) →
    σ.phase v.name = .checked

/-- No scanner is between reading the ids and deleting the list of marks. -/
def USys.quiet (σ : USys) : Prop := ∀ v ∈ σ.schema.views, ∀ ids, σ.phase v.name ≠ .read ids

/-- One step.  `next σ s` tells which programs may be started on the database in state `σ`; with `q`, transactions
commit only in quiet moments (C32 is about the others). -/
inductive UStep (C : VersionCodec) (q : Prop) (next : USys → Schema → Prop) : USys → USys → Prop
  /-- The scanner reads the stored version, integrity_scanner.rs:45-71. -/
  | current {σ v} (hv : v ∈ σ.schema.views) (hph : σ.phase v.name = .idle ∨ σ.phase v.name = .checked)
      (hc : (C.found (σ.versions v.name)).isCurrent v.version = true) :
      UStep C q next σ { σ with phase := upd σ.phase v.name .checked }
  | outdated {σ v} (hv : v ∈ σ.schema.views) (hph : σ.phase v.name = .idle ∨ σ.phase v.name = .checked)
      (hc : (C.found (σ.versions v.name)).isCurrent v.version = false) :
      UStep C q next σ { σ with phase := upd σ.phase v.name .outdated }
  | readIds {σ v} (hv : v ∈ σ.schema.views) (hph : σ.phase v.name = .outdated) :
      UStep C q next σ { σ with phase := upd σ.phase v.name (.read (σ.trees.docsOf v).keys) }
  | deleteMarks {σ v ids} (hv : v ∈ σ.schema.views) (hph : σ.phase v.name = .read ids) :
      UStep C q next σ { σ with
        trees := { σ.trees with invalidated := upd σ.trees.invalidated v.name .empty }
        phase := upd σ.phase v.name (.noMarks ids)
        torn := upd σ.torn v.name true }
  | deleteEntries {σ v ids} (hv : v ∈ σ.schema.views) (hph : σ.phase v.name = .noMarks ids) :
      UStep C q next σ { σ with
        trees := { σ.trees with entries := upd σ.trees.entries v.name .empty }
        phase := upd σ.phase v.name (.noEntries ids) }
  | deleteMap {σ v ids} (hv : v ∈ σ.schema.views) (hph : σ.phase v.name = .noEntries ids) :
      UStep C q next σ { σ with
        trees := { σ.trees with docMap := upd σ.trees.docMap v.name .empty }
        phase := upd σ.phase v.name (.wiped ids) }
  /-- One transaction stores the version and marks the documents. -/
  | store {σ v ids} (hv : v ∈ σ.schema.views) (hph : σ.phase v.name = .wiped ids) :
      UStep C q next σ { σ with
        trees := { σ.trees with
          invalidated := upd σ.trees.invalidated v.name (markAll (σ.trees.invalidated v.name) ids) }
        versions := upd σ.versions v.name (some (C.enc (.currentFor v.version)))
        phase := upd σ.phase v.name .stored
        torn := upd σ.torn v.name false }
  | complete {σ v} (hv : v ∈ σ.schema.views) (hph : σ.phase v.name = .stored) :
      UStep C q next σ { σ with phase := upd σ.phase v.name .checked }
  | transaction {σ ops t ch rs} (hp : prepare σ.schema σ.trees ops = .ok (t, ch, rs)) (hg : σ.gate ops)
      (hq : q → σ.quiet) : UStep C q next σ { σ with trees := t }
  /-- A mapping job commits a chunk; which ids it takes is not restricted. -/
  | map {σ v ids bs es dm} (hv : v ∈ σ.schema.views) (hph : (σ.phase v.name).mapped) (hnd : ids.Nodup)
      (hb : bs.flatten.Perm ids)
      (hm : mapBatches v (σ.trees.docs v.name.collection) bs (σ.trees.entries v.name, σ.trees.docMap v.name) = .ok (es, dm)) :
      UStep C q next σ { σ with trees := chunkTrees σ.trees v ids es dm }
  /-- The program ends, by a crash or not, and the next one is started. -/
  | restart {σ s} (hs : next σ s) : UStep C q next σ { σ with schema := s, phase := fun _ => .idle }

/-- Any history. -/
inductive UExec (C : VersionCodec) (q : Prop) (next : USys → Schema → Prop) : USys → USys → Prop
  | refl (σ) : UExec C q next σ σ
  | step {σ σ' σ''} (h : UExec C q next σ σ') (hs : UStep C q next σ' σ'') : UExec C q next σ σ''

end Bonsai.Store
