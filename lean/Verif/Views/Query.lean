import Verif.Store.Model
import Verif.Names.QueryKey
import Verif.Views.Spec

/-!
# Model of reads: document listings and view queries

`crates/bonsaidb-local/src/database.rs`: `list_from_collection`, `list_headers_from_collection`,
`count_from_collection`, `get_multiple_from_collection`, `create_view_iterator`, `query_by_name`,
`query_by_name_with_docs`, `reduce_grouped_by_name`, `reduce_by_name`, `delete_docs_by_name`.
-/
set_option linter.unusedSimpArgs false

namespace Bonsai.Store
open Bonsai Bonsai.Names Bonsai.Query

/-- `Sort`, core connection.rs. -/
inductive Sort' where
  | ascending
  | descending
  deriving DecidableEq

/-- The key is not before the start bound (nebari's range test; std `RangeBounds`). -/
def afterStart : Bound Bytes → Bytes → Bool
  | .unbounded, _ => true
  | .included a, k => decide (a = k ∨ a < k)
  | .excluded a, k => decide (a < k)

/-- The key is not after the end bound (nebari's range test; std `RangeBounds`). -/
def beforeStop : Bound Bytes → Bytes → Bool
  | .unbounded, _ => true
  | .included a, k => decide (k = a ∨ k < a)
  | .excluded a, k => decide (k < a)

/-- nebari's range test for a scan; `DocumentIdRange::borrow_as_bytes`, database.rs:1751-1766 and
`Range::map_ref`, core connection.rs:2445-2450 pass both bounds on unchanged. -/
def inRange (r : Range Bytes) (k : Bytes) : Bool := afterStart r.start k && beforeStop r.stop k

/-- The key evaluator closure shared by the scans (database.rs:1262-1272, 1325-1335, 778-786 and
806-814) folded over the keys nebari presents: it counts keys up to the limit, then answers `Stop`. -/
def takeLimit {α : Type} (limit : Option Nat) : Nat → List α → List α
  | _, [] => []
  | read, a :: as =>
    match limit with
    | none => a :: takeLimit limit read as
    | some n => if read ≥ n then [] else a :: takeLimit limit (read + 1) as

/-- nebari `Tree::scan` over a range in either direction, with the key evaluator above. -/
def scan {V : Type} (m : OMap V) (r : Range Bytes) (order : Sort') (limit : Option Nat) :
    List (Bytes × V) :=
  let hits := m.list.filter fun p => inRange r p.1
  takeLimit limit 0 (match order with | .ascending => hits | .descending => hits.reverse)

/-- nebari `Tree::get_multiple` for keys in order: each key that exists, with its value. -/
def getMultiple {V : Type} (m : OMap V) (ks : List Bytes) : List (Bytes × V) :=
  ks.filterMap fun k => (m.get k).map fun v => (k, v)

/-- Insertion into a sorted list. -/
def insertKey (k : Bytes) : List Bytes → List Bytes
  | [] => [k]
  | x :: xs => if k = x ∨ k < x then k :: x :: xs else x :: insertKey k xs

/-- `Vec::sort` (std) on byte strings: the sorted permutation (keys that compare equal are equal, so
it does not matter which sorting algorithm is used). -/
def sortKeys : List Bytes → List Bytes
  | [] => []
  | k :: ks => insertKey k (sortKeys ks)

/-! ## Documents -/

/-- `list_from_collection`, database.rs:1234-1287 (without the permission check). -/
def listDocs (t : Trees) (c : QName) (ids : Range Bytes) (order : Sort') (limit : Option Nat) :
    List Document := (scan (t.docs c) ids order limit).map (·.2)

/-- `list_headers_from_collection`, database.rs:1297-1350. -/
def listHeaders (t : Trees) (c : QName) (ids : Range Bytes) (order : Sort') (limit : Option Nat) :
    List Header := (scan (t.docs c) ids order limit).map (·.2.header)

/-- `count_from_collection`, database.rs:1360-1381: nebari's embedded count of alive keys over the
range. -/
def countDocs (t : Trees) (c : QName) (ids : Range Bytes) : Nat :=
  ((t.docs c).list.filter fun p => inRange ids p.1).length

/-- `get_multiple_from_collection`, database.rs:1391-1422. -/
def getDocs (t : Trees) (c : QName) (ids : List Bytes) : List Document :=
  (getMultiple (t.docs c) (sortKeys ids)).map (·.2)

/-! ## Views -/

/-- `create_view_iterator`, database.rs:760-830: order and limit reach only the scans. -/
def viewIterator (es : OMap ViewEntry) (key : Option (QueryKey Bytes)) (order : Sort')
    (limit : Option Nat) : List ViewEntry :=
  match key with
  | some (.range r) => (scan es r order limit).map (·.2)
  | some (.matches_ k) => (es.get k).toList
  | some (.multiple ks) => (getMultiple es (sortKeys ks)).map (·.2)
  | none => (scan es ⟨.unbounded, .unbounded⟩ order limit).map (·.2)

/-- `map::Serialized`, core schema/view/map.rs: one mapping as a query returns it. -/
structure Mapped where
  source : Header
  key : Bytes
  value : Bytes
  deriving DecidableEq

/-- `query_by_name`, database.rs:1458-1484 after the view is up to date. -/
def queryByName (es : OMap ViewEntry) (key : Option (QueryKey Bytes)) (order : Sort')
    (limit : Option Nat) : List Mapped :=
  (viewIterator es key order limit).flatMap fun e => e.mappings.map fun m => ⟨m.source, e.key, m.value⟩

/-- `query_by_name_with_docs`, database.rs:1496-1525: `BTreeMap` of the documents by id. -/
def queryWithDocs (es : OMap ViewEntry) (t : Trees) (c : QName) (key : Option (QueryKey Bytes))
    (order : Sort') (limit : Option Nat) : List Mapped × OMap Document :=
  let results := queryByName es key order limit
  (results, (getDocs t c (results.map (·.source.id))).foldl (fun m d => m.set d.header.id d) .empty)

/-- `reduce_grouped_by_name`, database.rs:1572-1593. -/
def reduceGrouped (es : OMap ViewEntry) (key : Option (QueryKey Bytes)) : List (Bytes × Bytes) :=
  (viewIterator es key .ascending none).map fun e => (e.key, e.reduced)

/-- `reduce_by_name`, database.rs:1537-1560. -/
def reduceByName (v : View) (es : OMap ViewEntry) (key : Option (QueryKey Bytes)) : Reduced :=
  match reduceGrouped es key with
  | [g] => .ok g.2
  | gs => v.reduce gs true

/-- The operations of `delete_docs_by_name`, database.rs:1611-1620. -/
def deleteOps (c : QName) (es : OMap ViewEntry) (key : Option (QueryKey Bytes)) : List Operation :=
  (viewIterator es key .ascending none).flatMap fun e =>
    e.mappings.map fun m => ⟨c, .delete m.source⟩

/-- `delete_docs_by_name`, database.rs:1605-1625: the view is read first (`es`), then one transaction
runs on the database as it is then. -/
def deleteDocs (s : Schema) (dbName : String) (sess : Session) (c : QName) (es : OMap ViewEntry)
    (key : Option (QueryKey Bytes)) (db : Db) (tid : Nat) : Except Err Nat × Db :=
  match applyTransaction s dbName sess db tid (deleteOps c es key) with
  | (.error e, db) => (.error e, db)
  | (.ok rs, db) => (.ok rs.length, db)

/-! ## Specification -/

/-- A key is within a range, as std documents `Bound`. -/
def Within (r : Range Bytes) (k : Bytes) : Prop :=
  (match r.start with | .unbounded => True | .included a => a ≤ k | .excluded a => a < k) ∧
  (match r.stop with | .unbounded => True | .included a => k ≤ a | .excluded a => k < a)

/-- A query selects a key. -/
def Selects : Option (QueryKey Bytes) → Bytes → Prop
  | none, _ => True
  | some (.matches_ k'), k => k = k'
  | some (.range r), k => Within r k
  | some (.multiple ks), k => k ∈ ks

/-! ## Lemmas -/

theorem bytes_le_iff {a b : Bytes} : a ≤ b ↔ a = b ∨ a < b := by
  show ¬ b < a ↔ _
  constructor
  · intro h
    rcases bytes_trichotomy a b with h' | h' | h'
    · exact .inr h'
    · exact .inl h'
    · exact absurd h' h
  · rintro (rfl | h) h'
    · exact bytes_lt_irrefl _ h'
    · exact bytes_lt_irrefl _ (bytes_lt_trans h h')

theorem inRange_iff {r : Range Bytes} {k : Bytes} : inRange r k = true ↔ Within r k := by
  obtain ⟨a, b⟩ := r
  simp only [inRange, Within, Bool.and_eq_true]
  cases a <;> cases b <;> simp [afterStart, beforeStop, bytes_le_iff]

theorem takeLimit_none {α : Type} (n : Nat) (l : List α) : takeLimit none n l = l := by
  induction l with
  | nil => rfl
  | cons a l ih => simp [takeLimit, ih]

theorem takeLimit_some {α : Type} (n r : Nat) (l : List α) :
    takeLimit (some n) r l = l.take (n - r) := by
  induction l generalizing r with
  | nil => simp [takeLimit]
  | cons a l ih =>
    simp only [takeLimit]
    split
    · rename_i h
      have : n - r = 0 := by omega
      simp [this]
    · rename_i h
      have : n - r = (n - (r + 1)) + 1 := by omega
      rw [ih, this, List.take_succ_cons]

/-- Truncation to an optional limit. -/
def truncate {α : Type} (limit : Option Nat) (l : List α) : List α :=
  match limit with
  | none => l
  | some n => l.take n

theorem takeLimit_eq {α : Type} (limit : Option Nat) (l : List α) :
    takeLimit limit 0 l = truncate limit l := by
  cases limit with
  | none => exact takeLimit_none 0 l
  | some n => simpa [truncate] using takeLimit_some n 0 l

theorem scan_truncate {V : Type} (m : OMap V) (r : Range Bytes) (o : Sort') (limit : Option Nat) :
    scan m r o limit = truncate limit (scan m r o none) := by
  simp only [scan, takeLimit_eq]
  rfl

theorem mem_scan {V : Type} {m : OMap V} {r : Range Bytes} {o : Sort'} {k : Bytes} {x : V} :
    (k, x) ∈ scan m r o none ↔ m.get k = some x ∧ Within r k := by
  simp only [scan, takeLimit_none]
  cases o <;> simp [List.mem_filter, OMap.mem_list_iff, inRange_iff]

theorem scan_sorted_asc {V : Type} (m : OMap V) (r : Range Bytes) :
    (scan m r .ascending none).Pairwise fun a b => a.1 < b.1 := by
  simp only [scan, takeLimit_none]
  exact List.Pairwise.filter _ m.sorted

theorem scan_sorted_desc {V : Type} (m : OMap V) (r : Range Bytes) :
    (scan m r .descending none).Pairwise fun a b => b.1 < a.1 := by
  simp only [scan, takeLimit_none]
  exact List.pairwise_reverse.mpr (List.Pairwise.filter _ m.sorted)

theorem insertKey_perm (k : Bytes) (l : List Bytes) : (insertKey k l).Perm (k :: l) := by
  induction l with
  | nil => exact List.Perm.refl _
  | cons x l ih =>
    simp only [insertKey]
    split
    · exact List.Perm.refl _
    · exact (ih.cons x).trans (List.Perm.swap k x l)

theorem sortKeys_perm (ks : List Bytes) : (sortKeys ks).Perm ks := by
  induction ks with
  | nil => exact List.Perm.refl _
  | cons k ks ih => exact (insertKey_perm k _).trans (ih.cons k)

theorem bytes_le_trans {a b c : Bytes} (h1 : a ≤ b) (h2 : b ≤ c) : a ≤ c := by
  rw [bytes_le_iff] at *
  rcases h1 with rfl | h1
  · exact h2
  · rcases h2 with rfl | h2
    · exact .inr h1
    · exact .inr (bytes_lt_trans h1 h2)

theorem insertKey_sorted {k : Bytes} {l : List Bytes} (h : l.Pairwise fun a b => a ≤ b) :
    (insertKey k l).Pairwise fun a b => a ≤ b := by
  induction l with
  | nil => simp [insertKey]
  | cons x l ih =>
    obtain ⟨h1, h2⟩ := List.pairwise_cons.mp h
    simp only [insertKey]
    split
    · rename_i hk
      refine List.pairwise_cons.mpr ⟨?_, h⟩
      intro y hy
      rcases List.mem_cons.mp hy with rfl | hy
      · exact bytes_le_iff.mpr hk
      · exact bytes_le_trans (bytes_le_iff.mpr hk) (h1 y hy)
    · rename_i hk
      refine List.pairwise_cons.mpr ⟨?_, ih h2⟩
      intro y hy
      rcases List.mem_cons.mp ((insertKey_perm k l).mem_iff.mp hy) with rfl | hy
      · rcases bytes_trichotomy x y with h' | h' | h'
        · exact bytes_le_iff.mpr (.inr h')
        · exact bytes_le_iff.mpr (.inl h')
        · exact absurd (.inr h') hk
      · exact h1 y hy

theorem sortKeys_sorted (ks : List Bytes) : (sortKeys ks).Pairwise fun a b => a ≤ b := by
  induction ks with
  | nil => exact List.Pairwise.nil
  | cons k ks ih => exact insertKey_sorted ih

theorem mem_getMultiple {V : Type} {m : OMap V} {ks : List Bytes} {k : Bytes} {x : V} :
    (k, x) ∈ getMultiple m ks ↔ k ∈ ks ∧ m.get k = some x := by
  simp only [getMultiple, List.mem_filterMap, Option.map_eq_some_iff, Prod.mk.injEq]
  constructor
  · rintro ⟨a, ha, b, hb, rfl, rfl⟩; exact ⟨ha, hb⟩
  · rintro ⟨h1, h2⟩; exact ⟨k, h1, x, h2, rfl, rfl⟩

theorem getMultiple_keys {V : Type} (m : OMap V) (ks : List Bytes) :
    (getMultiple m ks).map (·.1) = ks.filter fun k => (m.get k).isSome := by
  induction ks with
  | nil => rfl
  | cons k ks ih =>
    simp only [getMultiple, List.filterMap_cons] at ih ⊢
    cases h : m.get k with
    | none => simp [h, ih]
    | some x => simp [h, ih]

end Bonsai.Store
