import Verif.Views.C75e
import Verif.Typed.C74e

/-!
# C75: a concrete typed run
-/
set_option linter.unusedSimpArgs false
set_option linter.unusedVariables false

namespace Bonsai.Typed
open Bonsai Bonsai.Names Bonsai.Query Bonsai.Store Bonsai.Store.Wait

abbrev exWS : Schema := exTVSchema .lazy
abbrev exWV : View := (exTV .lazy).erase
abbrev exWA : List Operation → Prop := TypedClient exColl (fun _ => True)

theorem exWIn : exWV ∈ exWS.views := by simp [exTVSchema]

theorem exW_start : TypedStart exWS (fun _ => True) (exTV .lazy) (some (primFirst 1)) uintNext exQ where
  collisionFree := exTCollisionFree
  distinct := by simp [DistinctViews, exTVSchema]
  coll := exTV_lawfulColl .lazy
  view := exTV_lawful .lazy
  start := exQ_start _
  reach := .empty
  typed := by intro id n b h; cases h

def exWPrep : Trees × Changes :=
  match prepare exWS .empty exIns with
  | .ok (t, c, _) => (t, c)
  | .error _ => (.empty, ⟨[], []⟩)

def exWMapped :=
  match mapBatches exWV (exWPrep.1.docs exWV.name.collection) [[[7]]]
    (exWPrep.1.entries exWV.name, exWPrep.1.docMap exWV.name) with
  | .ok r => r
  | .error _ => (.empty, .empty)

def exW1 : QSys := exQ.commit 1 (some exWPrep.2) exWPrep.1
def exW2 : QSys := { exW1 with queries := [⟨exWV, true, .fresh, 0⟩] }
def exW3 : QSys := { exW1 with queries := [⟨exWV, true, .check 2, 0⟩] }
def exW4 : QSys := { exW1 with queries := [⟨exWV, true, .loop 2, 0⟩] }
def exW5 : QSys := { exW1 with mgr := exM1, evs := exE1, queries := [⟨exWV, true, .wait 2 1 0, 1⟩] }
def exW6 : QSys := { exW5 with
  mgr := exM2, evs := exE2, work := [(exTask1, .mapping ⟨exWV, 2, none⟩)] }
def exW7 : QSys := { exW6 with work := [(exTask1, .mapping ⟨exWV, 2, some [[7]]⟩)] }
def exW8 : QSys := { exW6.commit 3 none (chunkTrees exWPrep.1 exWV [[7]] exWMapped.1 exWMapped.2) with
  work := [(exTask1, .mapping ⟨exWV, 2, some []⟩)] }
def exW9 : QSys := { exW8 with
  results := upd (fun _ => []) exVName [2]
  status := upd (fun _ => none) exVName (some 2)
  work := [(exTask1, .ended exWV (some 2))] }
def exW10 : QSys := { exW9 with mgr := exM3, evs := exE3, work := [] }
def exW11 : QSys := { exW10 with queries := [⟨exWV, true, .done, 1⟩] }

theorem exW_begin : QExec exWS exWA exQ exW2 := by
  have h1 : QStep exWS exWA exQ exW1 :=
    QStep.transaction (q := exQ) (tid := 1) (ops := exIns) (t := exWPrep.1) (ch := exWPrep.2)
      (rs := [.updated exC ⟨[7], ⟨0, [5]⟩⟩])
      ⟨exTypedOps (os := [.insert (some (7 : BitVec 8)) ([5] : Bytes)]) rfl, fun _ _ _ _ => trivial⟩ rfl
      (Nat.zero_le _)
  have h2 : QStep exWS exWA exW1 exW2 := QStep.call (q := exW1) (v := exWV) (block := true) exWIn
  exact .step (.step (.refl _) h1) h2

theorem exW_query : QExec exWS exWA exW2 exW11 := by
  have h1 : QStep exWS exWA exW2 exW3 :=
    QStep.read (q := exW2) (p := 0) (x := ⟨exWV, true, .fresh, 0⟩) rfl rfl
  have h2 : QStep exWS exWA exW3 exW4 :=
    QStep.check (q := exW3) (p := 0) (x := ⟨exWV, true, .check 2, 0⟩) (w := 2) rfl rfl
  have h3 : QStep exWS exWA exW4 exW5 :=
    QStep.lookup (q := exW4) (p := 0) (x := ⟨exWV, true, .loop 2, 0⟩) (w := 2) rfl rfl
      (exRoom (by decide))
  have h4 : QStep exWS exWA exW5 exW6 :=
    QStep.start (q := exW5) (t := exTask1) (rest := []) (v := exWV) rfl rfl exWIn (by decide) (by decide)
      (exRoom (by decide))
  have h5 : QStep exWS exWA exW6 exW7 :=
    QStep.scan (q := exW6) (pre := []) (post := []) (t := exTask1) (v := exWV) (m := 2) rfl
  have h6 : QStep exWS exWA exW7 exW8 :=
    exChunkStep (q := exW7) (t := exTask1) (v := exWV) (m := 2) (tid := 3) (es := exWMapped.1)
      (dm := exWMapped.2) rfl (by decide) rfl
  have h7 : QStep exWS exWA exW8 exW9 :=
    QStep.finish (q := exW8) (pre := []) (post := []) (t := exTask1) (v := exWV) (m := 2) rfl
  have h8 : QStep exWS exWA exW9 exW10 :=
    QStep.complete (q := exW9) (pre := []) (post := []) (t := exTask1) (v := exWV) (r := some 2) rfl
      (exRoom (by decide))
  have h9 : QStep exWS exWA exW10 exW11 :=
    QStep.receive (q := exW10) (p := 0) (x := ⟨exWV, true, .wait 2 1 0, 1⟩) (w := 2) (id := 1) (ch := 0)
      (r := some 2) (rest := []) rfl rfl rfl
  exact .step (.step (.step (.step (.step (.step (.step (.step (.step (.refl _) h1) h2) h3) h4) h5) h6) h7)
    h8) h9

/-- The hypotheses of `C75_typed_query_sees_earlier_commits` are met, and the query finds the document. -/
example : TypedStart exWS (fun _ => True) (exTV .lazy) (some (primFirst 1)) uintNext exQ ∧
    QExec exWS exWA exQ exW2 ∧ NotBegun exW2 0 ∧ QExec exWS exWA exW2 exW11 ∧
    exW11.queries[0]? = some ⟨exWV, true, .done, 1⟩ ∧
    exRows (query (exTV .lazy) (exW2.db.trees.entries (exTV .lazy).name) (.new _)) = [] ∧
    exRows (query (exTV .lazy) (exW11.db.trees.entries (exTV .lazy).name) (.new _)) = [(5, 1, 7)] :=
  ⟨exW_start, exW_begin, fun _ h => by cases h; rfl, exW_query, rfl, by decide +kernel,
    by decide +kernel⟩

end Bonsai.Typed
