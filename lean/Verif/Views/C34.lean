import Verif.Views.C29
import Verif.Views.C36

/-!
# C34: order, range and limit of view queries
-/
set_option linter.unusedSimpArgs false

namespace Bonsai.Store
open Bonsai Bonsai.Names Bonsai.Query

/-- The keys of the entries a query visits. -/
theorem viewIterator_mem {es : OMap ViewEntry} (hwf : ViewWF es) (key : Option (QueryKey Bytes))
    (order : Sort') (e : ViewEntry) :
    e ∈ viewIterator es key order none ↔ es.get e.key = some e ∧ Selects key e.key := by
  have hscan : ∀ r, e ∈ (scan es r order none).map (·.2) ↔ es.get e.key = some e ∧ Within r e.key := by
    intro r
    rw [List.mem_map]
    constructor
    · rintro ⟨⟨k, x⟩, hp, rfl⟩
      obtain ⟨hg, hw⟩ := mem_scan.mp hp
      simp only [(hwf k x hg).1]
      exact ⟨hg, hw⟩
    · rintro ⟨hg, hw⟩
      exact ⟨_, mem_scan.mpr ⟨hg, hw⟩, rfl⟩
  cases key with
  | none => simp only [viewIterator, Selects]; rw [hscan]; simp [Within]
  | some q =>
    cases q with
    | range r => exact hscan r
    | matches_ k =>
      simp only [viewIterator, Selects, Option.mem_toList, Option.mem_def]
      constructor
      · intro hg
        have := (hwf k e hg).1
        exact ⟨by rw [this]; exact hg, this⟩
      · rintro ⟨hg, rfl⟩; exact hg
    | multiple ks =>
      simp only [viewIterator, Selects, List.mem_map]
      constructor
      · rintro ⟨⟨k, x⟩, hp, rfl⟩
        obtain ⟨hk, hg⟩ := mem_getMultiple.mp hp
        simp only [(hwf k x hg).1]
        exact ⟨hg, (sortKeys_perm ks).mem_iff.mp hk⟩
      · rintro ⟨hg, hk⟩
        exact ⟨_, mem_getMultiple.mpr ⟨(sortKeys_perm ks).mem_iff.mpr hk, hg⟩, rfl⟩

/-- **C34**, contents: for every stored view and every query key, a query without limit returns
exactly the stored mappings whose key the query selects. -/
theorem C34_query_exact (es : OMap ViewEntry) (hwf : ViewWF es) (key : Option (QueryKey Bytes))
    (order : Sort') (r : Mapped) :
    r ∈ queryByName es key order none ↔
      Selects key r.key ∧ (⟨r.source, r.value⟩ : EntryMapping) ∈ mappingsOf (es.get r.key) := by
  simp only [queryByName, List.mem_flatMap, List.mem_map]
  constructor
  · rintro ⟨e, he, m, hm, rfl⟩
    obtain ⟨hg, hs⟩ := (viewIterator_mem hwf key order e).mp he
    refine ⟨hs, ?_⟩
    simp only [hg]
    exact hm
  · rintro ⟨hs, hm⟩
    cases hg : es.get r.key with
    | none => rw [hg] at hm; simp [mappingsOf] at hm
    | some e =>
      rw [hg] at hm
      have hk := (hwf r.key e hg).1
      refine ⟨e, (viewIterator_mem hwf key order e).mpr ⟨by rw [hk]; exact hg, by rw [hk]; exact hs⟩,
        ⟨r.source, r.value⟩, hm, ?_⟩
      simp [hk]

/-- **C34** end to end: in every state any interleaving of transactions, mapping jobs, failures and
restarts can reach, once nothing is left to map, a query without limit returns exactly what the
documents of the collection emit for the selected keys (the last value per key, see C29). -/
theorem C34_query_returns_what_documents_emit (s : Schema) (hdv : DistinctViews s) (v : View)
    (hv : v ∈ s.views) (σ₀ σ : VSys) (hst : VStart v σ₀) (he : VExec s σ₀ σ)
    (hmapped : ∀ id, (σ.db.trees.invalidated v.name).get id = none)
    (key : Option (QueryKey Bytes)) (order : Sort') (r : Mapped) :
    r ∈ queryByName (σ.db.trees.entries v.name) key order none ↔
      Selects key r.key ∧ ∃ id d ms, (σ.db.trees.docsOf v).get id = some d ∧ v.map d = some ms ∧
        r.source = d.header ∧ lastValue ms r.key = some r.value := by
  obtain ⟨hinv, _⟩ := vexec_inv hdv hv (vstart_inv hst) hst.known he
  rw [C34_query_exact _ hinv.view.1.1]
  have := (C29_view_is_map_of_documents s hdv v hv σ₀ σ hst he hmapped).2.1 r.key ⟨r.source, r.value⟩
  simp only [VSys.at] at this
  rw [this]

/-! ## Order -/

theorem iterator_to_results {es : OMap ViewEntry} {key : Option (QueryKey Bytes)} {o : Sort'}
    {limit : Option Nat} {R : Bytes → Bytes → Prop} (hrefl : ∀ a, R a a)
    (h : (viewIterator es key o limit).Pairwise fun a b => R a.key b.key) :
    (queryByName es key o limit).Pairwise fun a b => R a.key b.key := by
  unfold queryByName
  rw [List.pairwise_flatMap]
  refine ⟨?_, ?_⟩
  · intro e _
    rw [List.pairwise_map]
    induction e.mappings with
    | nil => exact List.Pairwise.nil
    | cons m ms ih => exact List.pairwise_cons.mpr ⟨fun _ _ => hrefl _, ih⟩
  · refine List.Pairwise.imp ?_ h
    intro a b hab x hx y hy
    obtain ⟨_, _, rfl⟩ := List.mem_map.mp hx
    obtain ⟨_, _, rfl⟩ := List.mem_map.mp hy
    exact hab

theorem scan_entry_keys {es : OMap ViewEntry} (hwf : ViewWF es) (r : Range Bytes) (o : Sort')
    (limit : Option Nat) :
    ((scan es r o limit).map (·.2)).map (·.key) = (scan es r o limit).map (·.1) := by
  rw [List.map_map]
  refine List.map_congr_left ?_
  rintro ⟨k, x⟩ hp
  refine (hwf k x (mem_scan.mp (?_ : (k, x) ∈ scan es r o none)).1).1
  rw [scan_truncate] at hp
  cases limit with
  | none => exact hp
  | some n => exact List.mem_of_mem_take hp

theorem scan_entries_pairwise {es : OMap ViewEntry} (hwf : ViewWF es) (r : Range Bytes) (o : Sort')
    (limit : Option Nat) {R : Bytes → Bytes → Prop}
    (h : (scan es r o none).Pairwise fun a b => R a.1 b.1) :
    ((scan es r o limit).map (·.2)).Pairwise fun a b => R a.key b.key := by
  have h1 : (scan es r o limit).Pairwise fun a b => R a.1 b.1 := by
    rw [scan_truncate]
    cases limit with
    | none => exact h
    | some n => exact h.sublist (List.take_sublist _ _)
  have h2 := List.pairwise_map (f := Prod.fst) (R := R) |>.mpr h1
  rw [← scan_entry_keys hwf] at h2
  exact List.pairwise_map.mp h2

/-- The query scans the view: the whole view or a range of keys. -/
def IsScan : Option (QueryKey Bytes) → Prop
  | none => True
  | some (.range _) => True
  | _ => False

/-- **C34**, order: range queries (and queries of everything) return the mappings in ascending, or
descending, key order. -/
theorem C34_scan_order (es : OMap ViewEntry) (hwf : ViewWF es) (key : Option (QueryKey Bytes))
    (hk : IsScan key) (limit : Option Nat) :
    (queryByName es key .ascending limit).Pairwise (fun a b => a.key ≤ b.key) ∧
    (queryByName es key .descending limit).Pairwise (fun a b => b.key ≤ a.key) := by
  have hle : ∀ a : Bytes, a ≤ a := fun a => bytes_le_iff.mpr (.inl rfl)
  have key' : ∀ r, ((scan es r .ascending limit).map (·.2)).Pairwise (fun a b => a.key ≤ b.key) ∧
      ((scan es r .descending limit).map (·.2)).Pairwise (fun a b => b.key ≤ a.key) := by
    intro r
    constructor
    · exact scan_entries_pairwise (R := fun a b => a ≤ b) hwf r _ limit
        ((scan_sorted_asc es r).imp fun h => bytes_le_iff.mpr (.inr h))
    · exact scan_entries_pairwise (R := fun a b => b ≤ a) hwf r _ limit
        ((scan_sorted_desc es r).imp fun h => bytes_le_iff.mpr (.inr h))
  constructor
  · refine iterator_to_results (R := fun a b => a ≤ b) hle ?_
    cases key with
    | none => exact (key' _).1
    | some q => cases q with
      | range r => exact (key' r).1
      | matches_ => exact hk.elim
      | multiple => exact hk.elim
  · refine iterator_to_results (R := fun a b => b ≤ a) hle ?_
    cases key with
    | none => exact (key' _).2
    | some q => cases q with
      | range r => exact (key' r).2
      | matches_ => exact hk.elim
      | multiple => exact hk.elim

/-- **C34**, order, all query keys: ascending order is always honoured (descending order is not, see
`C34_violated_multiple_descending`). -/
theorem C34_ascending_order_partial (es : OMap ViewEntry) (hwf : ViewWF es)
    (key : Option (QueryKey Bytes)) (limit : Option Nat) :
    (queryByName es key .ascending limit).Pairwise (fun a b => a.key ≤ b.key) := by
  by_cases hk : IsScan key
  · exact (C34_scan_order es hwf key hk limit).1
  · refine iterator_to_results (R := fun a b => a ≤ b) (fun a => bytes_le_iff.mpr (.inl rfl)) ?_
    cases key with
    | none => exact absurd trivial hk
    | some q => cases q with
      | range r => exact absurd trivial hk
      | matches_ k =>
        simp only [viewIterator]
        cases es.get k <;> simp
      | multiple ks =>
        simp only [viewIterator]
        have h1 : ((getMultiple es (sortKeys ks)).map (·.2)).map (·.key) =
            (sortKeys ks).filter fun k => (es.get k).isSome := by
          rw [← getMultiple_keys, List.map_map]
          refine List.map_congr_left ?_
          rintro ⟨k, x⟩ hp
          exact (hwf k x (mem_getMultiple.mp hp).2).1
        have h2 := (sortKeys_sorted ks).filter fun k => (es.get k).isSome
        rw [← h1] at h2
        exact List.pairwise_map.mp h2

/-! ## Limit -/

/-- **C34**, limit, as the code has it: a scan with limit `n` returns all mappings of the first `n`
selected keys: a prefix of the unlimited result that holds at most `n` different keys. -/
theorem C34_limit_counts_keys_partial (es : OMap ViewEntry) (key : Option (QueryKey Bytes))
    (hk : IsScan key) (order : Sort') (n : Nat) :
    viewIterator es key order (some n) = (viewIterator es key order none).take n ∧
    queryByName es key order (some n) <+: queryByName es key order none := by
  have h1 : viewIterator es key order (some n) = (viewIterator es key order none).take n := by
    cases key with
    | none => simp only [viewIterator, scan_truncate _ _ _ (some n), truncate, List.map_take]
    | some q => cases q with
      | range r => simp only [viewIterator, scan_truncate _ _ _ (some n), truncate, List.map_take]
      | matches_ => exact hk.elim
      | multiple => exact hk.elim
  refine ⟨h1, ?_⟩
  unfold queryByName
  rw [h1]
  refine ⟨((viewIterator es key order none).drop n).flatMap fun e =>
    e.mappings.map fun m => ⟨m.source, e.key, m.value⟩, ?_⟩
  rw [← List.flatMap_append, List.take_append_drop]

theorem flatMap_one {α β : Type} (f : α → List β) (l : List α) (h : ∀ a ∈ l, (f a).length = 1) (n : Nat) :
    (l.take n).flatMap f = (l.flatMap f).take n := by
  induction l generalizing n with
  | nil => simp
  | cons a l ih =>
    cases n with
    | zero => simp
    | succ n =>
      have h1 := h a (by simp)
      obtain ⟨b, hb⟩ : ∃ b, f a = [b] := List.length_eq_one_iff.mp h1
      simp only [List.take_succ_cons, List.flatMap_cons, hb, List.singleton_append,
        ih (fun x hx => h x (List.mem_cons_of_mem _ hx))]

/-- **C34**, limit: when every key has one mapping, a scan with limit `n` returns the first `n`
mappings. -/
theorem C34_limit_partial (es : OMap ViewEntry) (hwf : ViewWF es) (key : Option (QueryKey Bytes))
    (hk : IsScan key) (order : Sort') (n : Nat)
    (hone : ∀ k e, es.get k = some e → e.mappings.length = 1) :
    queryByName es key order (some n) = (queryByName es key order none).take n := by
  unfold queryByName
  rw [(C34_limit_counts_keys_partial es key hk order n).1]
  refine flatMap_one _ _ ?_ n
  intro e he
  rw [List.length_map]
  exact hone _ _ ((viewIterator_mem hwf key order e).mp he).1

/-! ## With documents -/

theorem foldl_docs_get (l : List Document) (m : OMap Document) (id : Bytes) :
    ((l.foldl (fun m d => m.set d.header.id d) m).get id) =
      ((l.reverse.find? fun d => d.header.id = id).or (m.get id)) := by
  induction l generalizing m with
  | nil => simp
  | cons d l ih =>
    simp only [List.foldl_cons, ih, List.reverse_cons, List.find?_append, OMap.get_set,
      List.find?_cons, List.find?_nil, Option.or_assoc]
    congr 1
    by_cases h : d.header.id = id <;> simp [h]

/-- `query_with_docs` returns the query's mappings, and exactly those of their source documents that
exist when they are fetched. -/
theorem C34_query_with_docs (s : Schema) (S : Bytes → Prop) (db : Db) (hr : Reachable s S db)
    (c : QName) (es : OMap ViewEntry) (key : Option (QueryKey Bytes)) (order : Sort')
    (limit : Option Nat) (id : Bytes) (d : Document) :
    (queryWithDocs es db.trees c key order limit).2.get id = some d ↔
      (∃ r ∈ (queryWithDocs es db.trees c key order limit).1, r.source.id = id) ∧
        getDoc db c id = some d := by
  have hm := (C36_get_multiple s S db hr c
    ((queryByName es key order limit).map (·.source.id))).1
  simp only [queryWithDocs, foldl_docs_get, OMap.get_empty, Option.or_none]
  constructor
  · intro h
    have h1 := List.mem_of_find?_eq_some h
    have h2 : d.header.id = id := by simpa using List.find?_some h
    obtain ⟨h3, h4⟩ := (hm d).mp (List.mem_reverse.mp h1)
    rw [h2] at h3 h4
    obtain ⟨r, hr', he⟩ := List.mem_map.mp h3
    exact ⟨⟨r, hr', he⟩, h4⟩
  · rintro ⟨⟨r, hr', he⟩, hg⟩
    have hid : d.header.id = id := hr.own c id d hg
    have hin : d ∈ getDocs db.trees c ((queryByName es key order limit).map (·.source.id)) := by
      rw [hm]
      exact ⟨List.mem_map.mpr ⟨r, hr', by rw [he, hid]⟩, by rw [hid]; exact hg⟩
    cases hf : List.find? (fun d => decide (d.header.id = id))
        (getDocs db.trees c ((queryByName es key order limit).map (·.source.id))).reverse with
    | none =>
      rw [List.find?_eq_none] at hf
      exact absurd (by simpa using hid) (hf d (List.mem_reverse.mpr hin))
    | some d' =>
      have h1 := List.mem_of_find?_eq_some hf
      have h2 : d'.header.id = id := by simpa using List.find?_some hf
      have h3 := ((hm d').mp (List.mem_reverse.mp h1)).2
      rw [h2, hg] at h3
      exact h3.symm

/-! ## Violations -/

section Example

def exInsertTwo : List Operation := [⟨exC, .insert (some [7]) [5]⟩, ⟨exC, .insert (some [8]) [5]⟩]

/-- An eager view: each document emits its contents as key. -/
def exEager : View := ⟨exVName, .eager, 0, fun d => some [(d.contents, [1])], fun _ _ => .unimplemented⟩

/-- **C34 is violated**: two documents emit the same key; a query with limit one returns both. -/
theorem C34_violated_limit :
    ∃ (s : Schema) (v : View) (σ₀ σ : VSys), DistinctViews s ∧ v ∈ s.views ∧ VStart v σ₀ ∧
      VExec s σ₀ σ ∧
      (queryByName (σ.db.trees.entries v.name) none .ascending (some 1)).length = 2 := by
  refine ⟨exWith exEager, exEager, exStart, _, exDistinct _, by simp [exWith], exStart_start _,
    .step (.refl _) (.transaction (tid := 1) (ops := exInsertTwo) rfl (Nat.zero_le _)), ?_⟩
  decide

/-- **C34 is violated**: a query for one key, or for several keys, ignores the limit altogether. -/
theorem C34_violated_limit_ignored :
    ∃ (s : Schema) (v : View) (σ₀ σ : VSys) (k : Bytes), DistinctViews s ∧ v ∈ s.views ∧ VStart v σ₀ ∧
      VExec s σ₀ σ ∧
      (queryByName (σ.db.trees.entries v.name) (some (.matches_ k)) .ascending (some 0)).length = 2 ∧
      (queryByName (σ.db.trees.entries v.name) (some (.multiple [k])) .ascending (some 0)).length = 2 := by
  refine ⟨exWith exEager, exEager, exStart, _, [5], exDistinct _, by simp [exWith], exStart_start _,
    .step (.refl _) (.transaction (tid := 1) (ops := exInsertTwo) rfl (Nat.zero_le _)), ?_, ?_⟩ <;> decide

/-- **C34 is violated**: a query for several keys ignores descending order. -/
theorem C34_violated_multiple_descending :
    ∃ (s : Schema) (v : View) (σ₀ σ : VSys), DistinctViews s ∧ v ∈ s.views ∧ VStart v σ₀ ∧
      VExec s σ₀ σ ∧
      (queryByName (σ.db.trees.entries v.name) (some (.multiple [[6], [5]])) .descending none).map
        (·.key) = [[5], [6]] := by
  refine ⟨exWith exEager, exEager, exStart, _, exDistinct _, by simp [exWith], exStart_start _,
    .step (.refl _) (.transaction (tid := 1)
      (ops := [⟨exC, .insert (some [7]) [5]⟩, ⟨exC, .insert (some [8]) [6]⟩]) rfl (Nat.zero_le _)), ?_⟩
  decide

/-- The hypotheses of the order and limit theorems are met by a reachable view with two keys. -/
example : ∃ σ, VExec (exWith exEager) exStart σ ∧
    (∀ id, (σ.db.trees.invalidated exEager.name).get id = none) ∧
    (queryByName (σ.db.trees.entries exEager.name) (some (.range ⟨.excluded [4], .unbounded⟩))
      .descending (some 1)).map (·.key) = [[6]] := by
  refine ⟨_, .step (.refl _) (.transaction (tid := 1)
      (ops := [⟨exC, .insert (some [7]) [5]⟩, ⟨exC, .insert (some [8]) [6]⟩]) rfl (Nat.zero_le _)),
      fun _ => rfl, ?_⟩
  decide

end Example

end Bonsai.Store
