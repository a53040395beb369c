import Verif.Views.C34

/-!
# C33: reduced values
-/
set_option linter.unusedSimpArgs false

namespace Bonsai.Store
open Bonsai Bonsai.Names Bonsai.Query

/-! ## Specification -/

/-- The view has a reduce function (it may fail, but it is not `ReduceUnimplemented`). -/
def HasReduce (v : View) : Prop := ∀ l b, v.reduce l b ≠ .unimplemented

/-- Re-reducing reduced groups is consistent with reducing everything at once: for any groups of
values, each reduced to `r`, the re-reduction of the `r`s is the reduction of all values.  (One group
needs no re-reduction.) -/
def Consistent (v : View) : Prop :=
  ∀ gs : List (Bytes × List Bytes × Bytes), gs.length ≠ 1 →
    (∀ g ∈ gs, g.2.1 ≠ [] ∧ v.reduce (g.2.1.map fun x => (g.1, x)) false = .ok g.2.2) →
    v.reduce (gs.map fun g => (g.1, g.2.2)) true =
      v.reduce (gs.flatMap fun g => g.2.1.map fun x => (g.1, x)) false

/-- The key-value pairs of query results. -/
def pairs (rs : List Mapped) : List (Bytes × Bytes) := rs.map fun r => (r.key, r.value)

/-! ## Stored reductions -/

/-- Every stored entry holds the reduction of its mappings. -/
def RedInv (v : View) (es : OMap ViewEntry) : Prop :=
  ∀ key e, es.get key = some e →
    v.reduce (e.mappings.map fun m => (key, m.value)) false = .ok e.reduced

theorem reduceEntry_true {v : View} (hr : HasReduce v) {key : Bytes} {e e' : ViewEntry} {r' : Bool}
    (h : reduceEntry v key true e = .ok (e', r')) :
    r' = true ∧ v.reduce (e'.mappings.map fun m => (key, m.value)) false = .ok e'.reduced := by
  unfold reduceEntry at h
  rw [if_pos rfl] at h
  split at h
  · rename_i b hb
    cases h
    exact ⟨rfl, hb⟩
  · rename_i hu
    exact absurd hu (hr _ _)
  · cases h

theorem compareSwap_red {v : View} (hr : HasReduce v) {key : Bytes} {old res : Option ViewEntry}
    {clean : List Bytes} {new : List EntryMapping} {r' : Bool}
    (h : compareSwap v true key old clean new = .ok (res, r')) (hne : new ≠ [] ∨ clean ≠ []) :
    r' = true ∧ ∀ e, res = some e →
      v.reduce (e.mappings.map fun m => (key, m.value)) false = .ok e.reduced := by
  unfold compareSwap at h
  simp only at h
  split at h
  · rename_i hc
    split at h
    · cases h
    · split at h
      · rename_i hn
        rcases hne with h' | h'
        · exact absurd hn h'
        · exact absurd hc h'
      · split at h
        · cases h
        · rename_i e r he
          cases h
          obtain ⟨h1, h2⟩ := reduceEntry_true hr he
          exact ⟨h1, by rintro _ ⟨⟩; exact h2⟩
  · split at h
    · cases h
      exact ⟨rfl, by intro e he; cases he⟩
    · split at h
      · cases h
      · rename_i e1 r1 he1
        obtain ⟨h1, h2⟩ := reduceEntry_true hr he1
        subst h1
        split at h
        · cases h
        · split at h
          · cases h
            exact ⟨rfl, by rintro _ ⟨⟩; exact h2⟩
          · split at h
            · cases h
            · rename_i e r he
              cases h
              obtain ⟨h3, h4⟩ := reduceEntry_true hr he
              exact ⟨h3, by rintro _ ⟨⟩; exact h4⟩

theorem updateEntries_red {v : View} (hr : HasReduce v) {clean : Bytes → List Bytes}
    {new : Bytes → List EntryMapping} : ∀ {ks : List Bytes} {es es' : OMap ViewEntry},
    updateEntries v clean new true es ks = .ok es' → (∀ k ∈ ks, new k ≠ [] ∨ clean k ≠ []) →
    RedInv v es → RedInv v es' := by
  intro ks
  induction ks with
  | nil => intro es es' h _ hi; cases h; exact hi
  | cons k ks ih =>
    intro es es' h hne hi
    simp only [updateEntries] at h
    split at h
    · cases h
    · rename_i e r' hc
      obtain ⟨h1, h2⟩ := compareSwap_red hr hc (hne k (by simp))
      subst h1
      refine ih h (fun x hx => hne x (List.mem_cons_of_mem _ hx)) ?_
      intro key e' hg
      rw [OMap.get_set] at hg
      split at hg
      · rename_i hk
        cases hg
        subst hk
        exact h2 _ rfl
      · exact hi key e' hg
    · rename_i r' hc
      obtain ⟨h1, _⟩ := compareSwap_red hr hc (hne k (by simp))
      subst h1
      refine ih h (fun x hx => hne x (List.mem_cons_of_mem _ hx)) ?_
      intro key e' hg
      rw [OMap.get_remove] at hg
      split at hg
      · cases hg
      · exact hi key e' hg

theorem mapBatch_red {v : View} (hr : HasReduce v) {docs : OMap Document} {order : List Bytes}
    {es es' : OMap ViewEntry} {dm dm' : OMap (List Bytes)}
    (h : mapBatch v docs order (es, dm) = .ok (es', dm')) (hi : RedInv v es) : RedInv v es' := by
  unfold mapBatch at h
  split at h
  · cases h
  · split at h
    · cases h
    · rename_i hu
      cases h
      exact updateEntries_red hr hu (fun k hk => mem_allKeys.mp hk) hi

theorem mapBatches_red {v : View} (hr : HasReduce v) {docs : OMap Document} :
    ∀ {bs : List (List Bytes)} {es es' : OMap ViewEntry} {dm dm' : OMap (List Bytes)},
    mapBatches v docs bs (es, dm) = .ok (es', dm') → RedInv v es → RedInv v es' := by
  intro bs
  induction bs with
  | nil => intro es es' dm dm' h hi; cases h; exact hi
  | cons b bs ih =>
    intro es es' dm dm' h hi
    simp only [mapBatches] at h
    split at h
    · cases h
    · rename_i st hb
      obtain ⟨es1, dm1⟩ := st
      exact ih h (mapBatch_red hr hb hi)

theorem execOp_red {s : Schema} (hdv : DistinctViews s) {t t' : Trees} {op : Operation} {r : OpResult}
    (h : execOp s t op = .ok (t', r)) {v : View} (hv : v ∈ s.views) (hr : HasReduce v)
    (hi : RedInv v (t.entries v.name)) : RedInv v (t'.entries v.name) := by
  rcases execOp_shape h with rfl | ⟨id, od, del, hid, hu, _⟩
  · exact hi
  · by_cases hc : v.name.collection = op.collection
    · cases he : v.policy.isEager with
      | true =>
        rw [← hc] at hu
        exact mapBatch_red hr (updateEagerViews_this hdv hv he hu) hi
      | false => rw [(updateEagerViews_other hdv hu hv (.inr he)).1]; exact hi
    · rw [(updateEagerViews_other hdv hu hv (.inl hc)).1]; exact hi

theorem runOps_red {s : Schema} (hdv : DistinctViews s) {v : View} (hv : v ∈ s.views)
    (hr : HasReduce v) : ∀ {ops : List Operation} {t ch t' ch' rs},
    runOps s t ch ops = .ok (t', ch', rs) → RedInv v (t.entries v.name) →
    RedInv v (t'.entries v.name) := by
  intro ops
  induction ops with
  | nil => intro t ch t' ch' rs h hi; cases h; exact hi
  | cons op ops ih =>
    intro t ch t' ch' rs h hi
    simp only [runOps] at h
    split at h
    · cases h
    · rename_i t1 r1 h1
      split at h
      · cases h
      · split at h
        · cases h
        · rename_i h2
          cases h
          exact ih h2 (execOp_red hdv h1 hv hr hi)

theorem vexec_red {s : Schema} (hdv : DistinctViews s) {v : View} (hv : v ∈ s.views)
    (hr : HasReduce v) {σ₀ σ : VSys} (hst : VStart v σ₀) (he : VExec s σ₀ σ) :
    RedInv v (σ.db.trees.entries v.name) := by
  induction he with
  | refl =>
    rw [hst.entries]
    intro key e hg
    cases hg
  | @step τ τ' hex hs ih =>
    obtain ⟨_, hk⟩ := vexec_inv hdv hv (vstart_inv hst) hst.known hex
    cases hs with
    | transaction hp _ =>
      unfold prepare at hp
      split at hp
      · split at hp
        · cases hp
        · rename_i hrun
          cases hp
          have := runOps_red hdv hv hr hrun ih
          exact this
      · cases hp
    | @chunk pre post w m p tid bs es dm hj _ _ _ hm =>
      show RedInv v ((chunkTrees τ.db.trees w (chunkIds p) es dm).entries v.name)
      by_cases hwv : v.name = w.name
      · have hw : w ∈ s.views := hk ⟨w, m, some p⟩ (by rw [hj]; simp)
        have := distinct_inj hdv hw hv hwv.symm
        subst this
        simp only [chunkTrees, upd_self]
        exact mapBatches_red hr hm ih
      · simp only [chunkTrees, upd_ne _ _ hwv]
        exact ih
    | other => exact ih
    | begin => exact ih
    | scan => exact ih
    | done => exact ih
    | fail => exact ih
    | restart => exact ih

/-! ## The theorems -/

theorem query_pairs {es : OMap ViewEntry} (key : Option (QueryKey Bytes)) :
    pairs (queryByName es key .ascending none) =
      (viewIterator es key .ascending none).flatMap fun e => e.mappings.map fun m => (e.key, m.value) := by
  simp only [pairs, queryByName, List.map_flatMap, List.map_map]
  rfl

/-- **C33** `reduce`: in every state reachable by any interleaving of transactions, mapping jobs,
failures and restarts, for a view whose reduce function is consistent under re-reduction, `reduce`
over any key, keys or range is the reduction of everything a query with the same key would return
(also over nothing). -/
theorem C33_reduce_is_reduce_of_query (s : Schema) (hdv : DistinctViews s) (v : View)
    (hv : v ∈ s.views) (hr : HasReduce v) (hc : Consistent v) (σ₀ σ : VSys) (hst : VStart v σ₀)
    (he : VExec s σ₀ σ) (key : Option (QueryKey Bytes)) :
    reduceByName v (σ.db.trees.entries v.name) key =
      v.reduce (pairs (queryByName (σ.db.trees.entries v.name) key .ascending none)) false := by
  obtain ⟨hinv, _⟩ := vexec_inv hdv hv (vstart_inv hst) hst.known he
  have hwf := hinv.view.1.1
  have hred := vexec_red hdv hv hr hst he
  have hmem := fun e => viewIterator_mem hwf key .ascending e
  rw [query_pairs]
  unfold reduceByName reduceGrouped
  generalize viewIterator (σ.db.trees.entries v.name) key .ascending none = l at hmem ⊢
  have hent : ∀ e ∈ l, e.mappings ≠ [] ∧
      v.reduce (e.mappings.map fun m => (e.key, m.value)) false = .ok e.reduced := by
    intro e hin
    have hg := ((hmem e).mp hin).1
    exact ⟨(hwf e.key e hg).2.1, hred e.key e hg⟩
  have hmany : l.length ≠ 1 → v.reduce (l.map fun e => (e.key, e.reduced)) true =
      v.reduce (l.flatMap fun e => e.mappings.map fun m => (e.key, m.value)) false := by
    intro hl
    have := hc (l.map fun e => (e.key, e.mappings.map (·.value), e.reduced)) (by simpa using hl) (by
      intro g hg
      obtain ⟨e, hin, rfl⟩ := List.mem_map.mp hg
      obtain ⟨h1, h2⟩ := hent e hin
      refine ⟨by simpa using h1, ?_⟩
      rw [List.map_map]
      exact h2)
    rw [List.map_map, List.flatMap_map] at this
    simp only [List.map_map, Function.comp_def] at this
    exact this
  cases l with
  | nil => exact hmany (by simp)
  | cons e l =>
    cases l with
    | nil =>
      simp only [List.map_cons, List.map_nil, List.flatMap_cons, List.flatMap_nil, List.append_nil]
      exact ((hent e (by simp)).2).symm
    | cons b r => exact hmany (by simp)

/-- **C33** `reduce_grouped`: one value per selected key that has mappings, in key order, each the
reduction of that key's mappings. -/
theorem C33_grouped (s : Schema) (hdv : DistinctViews s) (v : View) (hv : v ∈ s.views)
    (hr : HasReduce v) (σ₀ σ : VSys) (hst : VStart v σ₀) (he : VExec s σ₀ σ)
    (key : Option (QueryKey Bytes)) :
    (∀ k x, (k, x) ∈ reduceGrouped (σ.db.trees.entries v.name) key ↔
      Selects key k ∧ σ.at v k ≠ [] ∧ v.reduce ((σ.at v k).map fun m => (k, m.value)) false = .ok x) ∧
    (reduceGrouped (σ.db.trees.entries v.name) key).Pairwise (fun a b => a.1 ≤ b.1) := by
  obtain ⟨hinv, _⟩ := vexec_inv hdv hv (vstart_inv hst) hst.known he
  have hwf := hinv.view.1.1
  have hred := vexec_red hdv hv hr hst he
  constructor
  · intro k x
    simp only [reduceGrouped, List.mem_map, Prod.mk.injEq]
    constructor
    · rintro ⟨e, hin, rfl, rfl⟩
      obtain ⟨hg, hs⟩ := (viewIterator_mem hwf key .ascending e).mp hin
      have ha : σ.at v e.key = e.mappings := by simp [VSys.at, hg, mappingsOf]
      rw [ha]
      exact ⟨hs, (hwf e.key e hg).2.1, hred e.key e hg⟩
    · rintro ⟨hs, hne, hx⟩
      cases hg : (σ.db.trees.entries v.name).get k with
      | none => simp [VSys.at, hg, mappingsOf] at hne
      | some e =>
        have ha : σ.at v k = e.mappings := by simp [VSys.at, hg, mappingsOf]
        have hk := (hwf k e hg).1
        rw [ha, hred k e hg] at hx
        cases hx
        exact ⟨e, (viewIterator_mem hwf key .ascending e).mpr ⟨by rw [hk]; exact hg, by rw [hk]; exact hs⟩,
          hk, rfl⟩
  · rw [reduceGrouped, List.pairwise_map]
    have hle : ∀ a : Bytes, a ≤ a := fun a => bytes_le_iff.mpr (.inl rfl)
    cases key with
    | none =>
      exact scan_entries_pairwise (R := fun a b => a ≤ b) hwf ⟨.unbounded, .unbounded⟩ .ascending none
        ((scan_sorted_asc _ _).imp (fun h => bytes_le_iff.mpr (.inr h)))
    | some q => cases q with
      | range r =>
        exact scan_entries_pairwise (R := fun a b => a ≤ b) hwf r .ascending none
          ((scan_sorted_asc _ _).imp (fun h => bytes_le_iff.mpr (.inr h)))
      | matches_ k =>
        simp only [viewIterator]
        cases (σ.db.trees.entries v.name).get k <;> simp
      | multiple ks =>
        simp only [viewIterator]
        have h1 : ((getMultiple (σ.db.trees.entries v.name) (sortKeys ks)).map (·.2)).map (·.key) =
            (sortKeys ks).filter fun k => ((σ.db.trees.entries v.name).get k).isSome := by
          rw [← getMultiple_keys, List.map_map]
          refine List.map_congr_left ?_
          rintro ⟨k, x⟩ hp
          exact (hwf k x (mem_getMultiple.mp hp).2).1
        have h2 := (sortKeys_sorted ks).filter fun k => ((σ.db.trees.entries v.name).get k).isSome
        rw [← h1] at h2
        exact List.pairwise_map.mp h2

/-- For one key, every key and every range, `reduce_grouped` never repeats a key. -/
theorem C33_grouped_once (s : Schema) (hdv : DistinctViews s) (v : View) (hv : v ∈ s.views)
    (σ₀ σ : VSys) (hst : VStart v σ₀) (he : VExec s σ₀ σ)
    (key : Option (QueryKey Bytes)) (hks : ∀ ks, key = some (.multiple ks) → ks.Nodup) :
    ((reduceGrouped (σ.db.trees.entries v.name) key).map (·.1)).Nodup := by
  obtain ⟨hinv, _⟩ := vexec_inv hdv hv (vstart_inv hst) hst.known he
  have hwf := hinv.view.1.1
  have hlt : ∀ {l : List Bytes}, l.Pairwise (fun a b => a < b) → l.Nodup := fun h =>
    List.Pairwise.imp (fun {a b} (h : a < b) (e : a = b) => bytes_lt_irrefl b (e ▸ h)) h
  have hs : ∀ r, (((scan (σ.db.trees.entries v.name) r .ascending none).map (·.2)).map (·.key)).Nodup := by
    intro r
    rw [scan_entry_keys hwf]
    exact hlt (List.pairwise_map.mpr (scan_sorted_asc _ r))
  rw [reduceGrouped, List.map_map]
  show ((viewIterator (σ.db.trees.entries v.name) key .ascending none).map (·.key)).Nodup
  cases key with
  | none => exact hs _
  | some q => cases q with
    | range r => exact hs r
    | matches_ k =>
      simp only [viewIterator]
      cases (σ.db.trees.entries v.name).get k <;> simp
    | multiple ks =>
      simp only [viewIterator]
      have h1 : ((getMultiple (σ.db.trees.entries v.name) (sortKeys ks)).map (·.2)).map (·.key) =
          (sortKeys ks).filter fun k => ((σ.db.trees.entries v.name).get k).isSome := by
        rw [← getMultiple_keys, List.map_map]
        refine List.map_congr_left ?_
        rintro ⟨k, x⟩ hp
        exact (hwf k x (mem_getMultiple.mp hp).2).1
      rw [h1]
      exact ((sortKeys_perm ks).nodup_iff.mpr (hks ks rfl)).filter _

/-! ## A concrete view -/

section Example

/-- A sum over the first byte of the values. -/
def exSum (l : List (Bytes × Bytes)) : Bytes := [(l.map fun p => p.2.headD 0).sum]

def exSumView : View := ⟨exVName, .eager, 0, fun d => some [(d.contents, [3])], fun l _ => .ok (exSum l)⟩

theorem exSum_append (a b : List (Bytes × Bytes)) :
    exSum (a ++ b) = [(exSum a).headD 0 + (exSum b).headD 0] := by
  simp [exSum, List.sum_append]

theorem exSumView_lawful : HasReduce exSumView ∧ Consistent exSumView := by
  constructor
  · intro l b h; cases h
  · intro gs hl hall
    clear hl
    simp only [exSumView, Reduced.ok.injEq] at hall ⊢
    induction gs with
    | nil => rfl
    | cons g gs ih =>
      have h1 := (hall g (by simp)).2
      have h2 := ih (fun x hx => hall x (List.mem_cons_of_mem _ hx))
      rw [List.flatMap_cons, exSum_append, h1, ← h2, List.map_cons]
      simp [exSum]

/-- Three documents, two keys: the reduction over everything is the sum of all values. -/
example : ∃ σ, VStart exSumView exStart ∧ VExec (exWith exSumView) exStart σ ∧
    reduceGrouped (σ.db.trees.entries exSumView.name) none = [([5], [6]), ([6], [3])] ∧
    reduceByName exSumView (σ.db.trees.entries exSumView.name) none = .ok [9] := by
  refine ⟨_, exStart_start _, .step (.refl _) (.transaction (tid := 1)
      (ops := [⟨exC, .insert (some [7]) [5]⟩, ⟨exC, .insert (some [8]) [6]⟩,
        ⟨exC, .insert (some [9]) [5]⟩]) rfl (Nat.zero_le _)), rfl, rfl⟩

end Example

end Bonsai.Store
