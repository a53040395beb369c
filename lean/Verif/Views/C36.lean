import Verif.Views.Query
import Verif.Views.Txn
import Verif.Store.Step

/-!
# C36: listing documents
-/
set_option linter.unusedSimpArgs false

namespace Bonsai.Store
open Bonsai Bonsai.Names Bonsai.Query

theorem execOp_own' {s : Schema} {t t' : Trees} {op : Operation} {r : OpResult}
    (h : execOp s t op = .ok (t', r)) (ho : AllOwn t) : AllOwn t' := by
  rcases execOp_shape h with rfl | ⟨id, od, del, hid, hu, _⟩
  · exact ho
  · intro c i d hd
    rw [(updateEagerViews_docs hu).1, write_get] at hd
    split at hd
    · rename_i hc
      rw [hid d hd, hc.2]
    · exact ho c i d hd

theorem runOps_own' {s : Schema} : ∀ {ops : List Operation} {t ch t' ch' rs},
    runOps s t ch ops = .ok (t', ch', rs) → AllOwn t → AllOwn t' := by
  intro ops
  induction ops with
  | nil => intro t ch t' ch' rs h ho; cases h; exact ho
  | cons op ops ih =>
    intro t ch t' ch' rs h ho
    rw [runOps] at h
    cases hx : execOp s t op with
    | error e => rw [hx] at h; cases h
    | ok p =>
      obtain ⟨t1, r⟩ := p
      rw [hx] at h
      simp only at h
      split at h
      · cases h
      · split at h
        · cases h
        · rename_i hr
          cases h
          exact ih hr (execOp_own' hx ho)

/-- Every stored document is stored under its own id. -/
theorem Reachable.own {s S db} (h : Reachable s S db) : AllOwn db.trees := by
  induction h with
  | empty => intro c id d h; cases h
  | @transaction db tid ops h hw ih =>
    simp only [applyToRoots, prepare]
    split
    · exact ih
    · rename_i hp
      split at hp
      · split at hp
        · cases hp
        · rename_i hr
          cases hp
          have := runOps_own' hr ih
          exact this
      · cases hp
  | background h hd ih => intro c id d hg; rw [hd] at hg; exact ih c id d hg

/-! ## The theorems -/

/-- **C36** `list`: without a limit, exactly the documents whose id is in the range. -/
theorem C36_list_exact (s : Schema) (S : Bytes → Prop) (db : Db) (hr : Reachable s S db) (c : QName)
    (ids : Range Bytes) (order : Sort') (d : Document) :
    d ∈ listDocs db.trees c ids order none ↔ getDoc db c d.header.id = some d ∧ Within ids d.header.id := by
  simp only [listDocs, List.mem_map, getDoc]
  constructor
  · rintro ⟨⟨k, x⟩, hp, rfl⟩
    obtain ⟨hg, hw⟩ := mem_scan.mp hp
    have := hr.own c k x hg
    simp only [this]
    exact ⟨hg, hw⟩
  · rintro ⟨hg, hw⟩
    exact ⟨_, mem_scan.mpr ⟨hg, hw⟩, rfl⟩

theorem list_keys {s : Schema} {S : Bytes → Prop} {db : Db} (hr : Reachable s S db) (c : QName)
    (ids : Range Bytes) (order : Sort') :
    (listDocs db.trees c ids order none).map (·.header.id) =
      (scan (db.trees.docs c) ids order none).map (·.1) := by
  simp only [listDocs, List.map_map]
  refine List.map_congr_left ?_
  rintro ⟨k, x⟩ hp
  exact hr.own c k x (mem_scan.mp hp).1

/-- **C36** `list`: the documents come in strictly increasing id order, or strictly decreasing when
descending order is asked for (so no document comes twice). -/
theorem C36_list_sorted (s : Schema) (S : Bytes → Prop) (db : Db) (hr : Reachable s S db) (c : QName)
    (ids : Range Bytes) (limit : Option Nat) :
    (listDocs db.trees c ids .ascending limit).Pairwise (fun a b => a.header.id < b.header.id) ∧
    (listDocs db.trees c ids .descending limit).Pairwise (fun a b => b.header.id < a.header.id) := by
  have key : ∀ o, (listDocs db.trees c ids o limit).Sublist (listDocs db.trees c ids o none) := by
    intro o
    simp only [listDocs, scan_truncate _ _ _ limit]
    cases limit with
    | none => exact List.Sublist.refl _
    | some n => exact (List.take_sublist _ _).map _
  constructor
  · refine List.Pairwise.sublist (key _) ?_
    have := List.pairwise_map.mpr (scan_sorted_asc (db.trees.docs c) ids)
    rw [← list_keys hr] at this
    exact List.pairwise_map.mp this
  · refine List.Pairwise.sublist (key _) ?_
    have := List.pairwise_map (f := Prod.fst) (R := fun a b => b < a) |>.mpr
      (scan_sorted_desc (db.trees.docs c) ids)
    rw [← list_keys hr] at this
    exact List.pairwise_map.mp this

/-- **C36** `list`: a limit keeps the first documents of the unlimited listing. -/
theorem C36_list_limit (t : Trees) (c : QName) (ids : Range Bytes) (order : Sort') (n : Nat) :
    listDocs t c ids order (some n) = (listDocs t c ids order none).take n := by
  simp only [listDocs, scan_truncate _ _ _ (some n), truncate, List.map_take]

/-- **C36** `list_headers` returns the headers of what `list` returns. -/
theorem C36_list_headers (t : Trees) (c : QName) (ids : Range Bytes) (order : Sort')
    (limit : Option Nat) :
    listHeaders t c ids order limit = (listDocs t c ids order limit).map (·.header) := by
  simp [listHeaders, listDocs, List.map_map, Function.comp_def]

/-- **C36** `count`: the number of documents `list` returns. -/
theorem C36_count (t : Trees) (c : QName) (ids : Range Bytes) (order : Sort') :
    countDocs t c ids = (listDocs t c ids order none).length := by
  simp only [countDocs, listDocs, scan, takeLimit_none, List.length_map]
  cases order <;> simp

/-- **C36** `get_multiple`: exactly the requested documents that exist, in id order, each as often as
it was asked for. -/
theorem C36_get_multiple (s : Schema) (S : Bytes → Prop) (db : Db) (hr : Reachable s S db) (c : QName)
    (ids : List Bytes) :
    (∀ d, d ∈ getDocs db.trees c ids ↔ d.header.id ∈ ids ∧ getDoc db c d.header.id = some d) ∧
    ((getDocs db.trees c ids).map (·.header.id)).Perm (ids.filter fun id => (getDoc db c id).isSome) ∧
    (getDocs db.trees c ids).Pairwise (fun a b => a.header.id ≤ b.header.id) := by
  have hkeys : (getDocs db.trees c ids).map (·.header.id) =
      (sortKeys ids).filter fun k => ((db.trees.docs c).get k).isSome := by
    rw [← getMultiple_keys]
    simp only [getDocs, List.map_map]
    refine List.map_congr_left ?_
    rintro ⟨k, x⟩ hp
    exact hr.own c k x (mem_getMultiple.mp hp).2
  refine ⟨?_, ?_, ?_⟩
  · intro d
    simp only [getDocs, List.mem_map, getDoc]
    constructor
    · rintro ⟨⟨k, x⟩, hp, rfl⟩
      obtain ⟨hk, hg⟩ := mem_getMultiple.mp hp
      have := hr.own c k x hg
      simp only [this]
      exact ⟨(sortKeys_perm ids).mem_iff.mp hk, hg⟩
    · rintro ⟨hk, hg⟩
      exact ⟨_, mem_getMultiple.mpr ⟨(sortKeys_perm ids).mem_iff.mpr hk, hg⟩, rfl⟩
  · rw [hkeys]
    exact (sortKeys_perm ids).filter _
  · have := (sortKeys_sorted ids).filter fun k => ((db.trees.docs c).get k).isSome
    rw [← hkeys] at this
    exact List.pairwise_map.mp this

/-! ## A concrete case -/

/-- Three documents, listed descending in the range `2 ≤ id < 9` with limit one. -/
example : ∃ db, Reachable { exSchema with views := [] } (fun _ => True) db ∧
    (listDocs db.trees exC ⟨.included [2], .excluded [9]⟩ .descending (some 1)).map (·.header.id) = [[7]] ∧
    countDocs db.trees exC ⟨.included [2], .excluded [9]⟩ = 2 ∧
    (getDocs db.trees exC [[9], [3], [1]]).map (·.header.id) = [[1], [3]] :=
  ⟨_, .transaction 0 [⟨exC, .insert (some [7]) [5]⟩, ⟨exC, .insert (some [3]) [5]⟩,
      ⟨exC, .insert (some [1]) [5]⟩] .empty (fun _ _ _ _ => trivial), by decide, by decide, by decide⟩

end Bonsai.Store
