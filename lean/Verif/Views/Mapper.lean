import Verif.Views.Spec

/-!
# The view mapper computes the map of the documents

Lemmas about `upsert`, `addMappings`, `compareSwap`, `updateEntries` and `mapBatch`.
-/
set_option linter.unusedSimpArgs false

namespace Bonsai.Store
open Bonsai Bonsai.Names

abbrev Maps := List (Bytes × Header × List (Bytes × Bytes))

/-- The last mapping of a document in a list of new mappings. -/
def lastWith (ns : List EntryMapping) (id : Bytes) : Option EntryMapping :=
  match ns with
  | [] => none
  | n :: r => (lastWith r id).or (if n.source.id = id then some n else none)

abbrev NodupIds (ms : List EntryMapping) : Prop := (ms.map fun m => m.source.id).Nodup

theorem findId_upsert (ms : List EntryMapping) (n : EntryMapping) (id : Bytes) :
    findId (upsert ms n) id = if n.source.id = id then some n else findId ms id := by
  induction ms with
  | nil => simp [upsert, findId]
  | cons m ms ih =>
    simp only [upsert]
    split
    · rename_i h
      have hn : (⟨⟨m.source.id, n.source.revision⟩, n.value⟩ : EntryMapping) = n := by
        obtain ⟨⟨_, _⟩, _⟩ := n; simp at h; simp [h]
      rw [hn]
      simp only [findId, List.find?_cons]
      by_cases hi : n.source.id = id
      · simp [hi]
      · simp [hi, h]
    · rename_i h
      simp only [findId, List.find?_cons] at ih ⊢
      rw [ih]
      by_cases hm : m.source.id = id
      · have : n.source.id ≠ id := fun e => h (hm.trans e.symm)
        simp [hm, this]
      · simp [hm]

theorem mem_upsert_ids {ms : List EntryMapping} {n : EntryMapping} {x : Bytes} :
    x ∈ ((upsert ms n).map fun m => m.source.id) ↔
      x = n.source.id ∨ x ∈ (ms.map fun m => m.source.id) := by
  induction ms with
  | nil => simp [upsert]
  | cons m ms ih =>
    simp only [upsert]
    split
    · rename_i h; simp [h]
    · simp only [List.map_cons, List.mem_cons, ih]
      constructor
      · rintro (h | h | h) <;> simp [h]
      · rintro (h | h | h) <;> simp [h]

theorem upsert_nodup {ms : List EntryMapping} (n : EntryMapping) (h : NodupIds ms) :
    NodupIds (upsert ms n) := by
  induction ms with
  | nil => simp [upsert, NodupIds]
  | cons m ms ih =>
    simp only [NodupIds, List.map_cons, List.nodup_cons] at h
    simp only [upsert]
    split
    · simpa [NodupIds] using h
    · rename_i hne
      simp only [NodupIds, List.map_cons, List.nodup_cons]
      refine ⟨?_, ih h.2⟩
      rw [mem_upsert_ids]
      rintro (e | e)
      · exact hne e
      · exact h.1 e

theorem upsert_ne_nil (ms : List EntryMapping) (n : EntryMapping) : upsert ms n ≠ [] := by
  cases ms with
  | nil => simp [upsert]
  | cons m ms => simp only [upsert]; split <;> simp

theorem addMappings_spec {v : View} {ns ms ms' : List EntryMapping}
    (h : addMappings v ms ns = .ok ms') :
    (∀ id, findId ms' id = (lastWith ns id).or (findId ms id)) ∧
      (NodupIds ms → NodupIds ms') ∧ (ms ≠ [] → ms' ≠ []) ∧ (ns ≠ [] → ms' ≠ []) := by
  induction ns generalizing ms with
  | nil =>
    simp only [addMappings, Except.ok.injEq] at h
    subst h
    simp [lastWith]
  | cons n ns ih =>
    simp only [addMappings] at h
    split at h
    · cases h
    · obtain ⟨h1, h2, h3, h4⟩ := ih h
      refine ⟨?_, fun hn => h2 (upsert_nodup n hn), fun _ => h3 (upsert_ne_nil _ _),
        fun _ => h3 (upsert_ne_nil _ _)⟩
      intro id
      rw [h1, findId_upsert]
      simp only [lastWith]
      cases lastWith ns id with
      | some x => simp
      | none => by_cases hi : n.source.id = id <;> simp [hi]

theorem findId_filter (ms : List EntryMapping) (clean : List Bytes) (id : Bytes) :
    findId (ms.filter fun m => !clean.contains m.source.id) id =
      if id ∈ clean then none else findId ms id := by
  induction ms with
  | nil => simp [findId]
  | cons m ms ih =>
    simp only [findId] at ih ⊢
    by_cases hc : m.source.id ∈ clean
    · simp only [List.filter_cons, List.contains_eq_mem, hc, decide_true, Bool.not_true,
        Bool.false_eq_true, if_false, List.find?_cons] at ih ⊢
      rw [ih]
      by_cases hm : m.source.id = id
      · subst hm; simp [hc]
      · simp [hm]
    · simp only [List.filter_cons, List.contains_eq_mem, hc, decide_false, Bool.not_false,
        if_true, List.find?_cons] at ih ⊢
      rw [ih]
      by_cases hm : m.source.id = id
      · subst hm; simp [hc]
      · simp [hm]

theorem filter_nodup {ms : List EntryMapping} (p : EntryMapping → Bool) (h : NodupIds ms) :
    NodupIds (ms.filter p) :=
  List.Nodup.sublist (List.Sublist.map _ List.filter_sublist) h

theorem reduceEntry_mappings {v : View} {key : Bytes} {r : Bool} {e e' : ViewEntry} {r' : Bool}
    (h : reduceEntry v key r e = .ok (e', r')) : e'.mappings = e.mappings ∧ e'.key = e.key := by
  unfold reduceEntry at h
  split at h
  · split at h <;> cases h <;> exact ⟨rfl, rfl⟩
  · cases h; exact ⟨rfl, rfl⟩

/-- The mapping list behind an optional entry. -/
def mappingsOf (e : Option ViewEntry) : List EntryMapping := (e.map (·.mappings)).getD []

theorem compareSwap_spec {v : View} {r r' : Bool} {key : Bytes} {old res : Option ViewEntry}
    {clean : List Bytes} {new : List EntryMapping}
    (h : compareSwap v r key old clean new = .ok (res, r'))
    (hold : ∀ e, old = some e → e.key = key ∧ e.mappings ≠ [] ∧ NodupIds e.mappings)
    (hne : clean ≠ [] ∨ new ≠ []) :
    (∀ id, findId (mappingsOf res) id = (lastWith new id).or
        (if id ∈ clean then none else findId (mappingsOf old) id)) ∧
      (∀ e, res = some e → e.key = key ∧ e.mappings ≠ [] ∧ NodupIds e.mappings) := by
  have hent : (old.getD ⟨v.version, key, [], []⟩).mappings = mappingsOf old := by
    cases old <;> rfl
  have hkey : (old.getD ⟨v.version, key, [], []⟩).key = key := by
    cases old with
    | none => rfl
    | some e => exact (hold e rfl).1
  have hnd : NodupIds (mappingsOf old) := by
    cases old with
    | none => simp [mappingsOf, NodupIds]
    | some e => exact (hold e rfl).2.2
  unfold compareSwap at h
  simp only [] at h
  split at h
  · rename_i hc
    subst hc
    have hnew : new ≠ [] := by simpa using hne
    split at h
    · cases h
    · rename_i ms hms
      rw [hent] at hms
      obtain ⟨h1, h2, _, h4⟩ := addMappings_spec hms
      simp only [hnew, if_false] at h
      split at h
      · cases h
      · rename_i e r1 hr
        obtain ⟨hm, hk⟩ := reduceEntry_mappings hr
        simp only [Except.ok.injEq, Prod.mk.injEq] at h
        obtain ⟨rfl, rfl⟩ := h
        simp only at hm hk
        refine ⟨?_, ?_⟩
        · intro id
          simp only [mappingsOf, Option.map_some, Option.getD_some, hm, List.not_mem_nil, if_false]
          exact h1 id
        · rintro e' he'
          cases he'
          exact ⟨hk.trans hkey, by rw [hm]; exact h4 hnew, by rw [hm]; exact h2 hnd⟩
  · rename_i hc
    rw [hent] at h
    split at h
    · rename_i hkn
      simp only [Except.ok.injEq, Prod.mk.injEq] at h
      obtain ⟨rfl, rfl⟩ := h
      refine ⟨?_, by intro e he; cases he⟩
      intro id
      rw [hkn.2]
      have := findId_filter (mappingsOf old) clean id
      rw [hkn.1] at this
      simp only [lastWith, Option.none_or]
      rw [← this]; rfl
    · rename_i hkn
      split at h
      · cases h
      · rename_i e1 r1 hr1
        obtain ⟨hm1, hk1⟩ := reduceEntry_mappings hr1
        simp only at hm1 hk1
        split at h
        · cases h
        · rename_i ms hms
          obtain ⟨h1, h2, h3, h4⟩ := addMappings_spec hms
          rw [hm1] at h1 h2 h3
          split at h
          · rename_i hn
            simp only [Except.ok.injEq, Prod.mk.injEq] at h
            obtain ⟨rfl, rfl⟩ := h
            subst hn
            refine ⟨?_, ?_⟩
            · intro id
              simp only [mappingsOf, Option.map_some, Option.getD_some, lastWith, Option.none_or]
              rw [hm1]
              exact findId_filter _ _ _
            · intro e he
              cases he
              refine ⟨hk1.trans hkey, ?_, by rw [hm1]; exact filter_nodup _ hnd⟩
              rw [hm1]
              intro e
              exact hkn ⟨e, rfl⟩
          · rename_i hn
            split at h
            · cases h
            · rename_i e2 r2 hr2
              obtain ⟨hm2, hk2⟩ := reduceEntry_mappings hr2
              simp only at hm2 hk2
              simp only [Except.ok.injEq, Prod.mk.injEq] at h
              obtain ⟨rfl, rfl⟩ := h
              refine ⟨?_, ?_⟩
              · intro id
                simp only [mappingsOf, Option.map_some, Option.getD_some]
                rw [hm2, h1, findId_filter]; rfl
              · intro e he
                cases he
                exact ⟨(hk2.trans hk1).trans hkey, by rw [hm2]; exact h4 hn,
                  by rw [hm2]; exact h2 (filter_nodup _ hnd)⟩

theorem found_eq (es : OMap ViewEntry) (key id : Bytes) :
    found es key id = findId (mappingsOf (es.get key)) id := by
  unfold found
  cases es.get key <;> rfl

theorem updateEntries_spec {v : View} {clean : Bytes → List Bytes} {new : Bytes → List EntryMapping}
    {ks : List Bytes} {r : Bool} {es es' : OMap ViewEntry}
    (h : updateEntries v clean new r es ks = .ok es') (hwf : ViewWF es) (hnd : ks.Nodup)
    (hne : ∀ k ∈ ks, clean k ≠ [] ∨ new k ≠ []) :
    ViewWF es' ∧ ∀ key id, found es' key id =
      if key ∈ ks then (lastWith (new key) id).or
        (if id ∈ clean key then none else found es key id)
      else found es key id := by
  induction ks generalizing r es with
  | nil =>
    simp only [updateEntries, Except.ok.injEq] at h
    subst h
    exact ⟨hwf, by simp⟩
  | cons k ks ih =>
    simp only [List.nodup_cons] at hnd
    have hk := hne k (by simp)
    have hne' : ∀ x ∈ ks, clean x ≠ [] ∨ new x ≠ [] := fun x hx => hne x (by simp [hx])
    simp only [updateEntries] at h
    have key_step : ∀ (res : Option ViewEntry) (r' : Bool) (es1 : OMap ViewEntry),
        compareSwap v r k (es.get k) (clean k) (new k) = .ok (res, r') →
        (∀ x, es1.get x = if k = x then res else es.get x) →
        updateEntries v clean new r' es1 ks = .ok es' →
        ViewWF es' ∧ ∀ key id, found es' key id =
          if key ∈ k :: ks then (lastWith (new key) id).or
            (if id ∈ clean key then none else found es key id)
          else found es key id := by
      intro res r' es1 hcs hget hrest
      obtain ⟨c1, c2⟩ := compareSwap_spec hcs (fun e he => hwf k e he) hk
      have hwf1 : ViewWF es1 := by
        intro key e he
        rw [hget] at he
        split at he
        · rename_i hkk; subst hkk; exact c2 e he
        · exact hwf key e he
      obtain ⟨w, f⟩ := ih hrest hwf1 hnd.2 hne'
      refine ⟨w, ?_⟩
      intro key id
      rw [f]
      by_cases hkk : k = key
      · subst hkk
        simp only [hnd.1, if_false, List.mem_cons, true_or, if_true]
        rw [found_eq, hget, if_pos rfl, c1 id, found_eq]
      · have hkk' : key ≠ k := fun e => hkk e.symm
        have : found es1 key id = found es key id := by
          rw [found_eq, found_eq, hget, if_neg hkk]
        simp [this, hkk']
    split at h
    · cases h
    · rename_i e r' hcs
      refine key_step _ _ _ hcs ?_ h
      intro x
      rw [OMap.get_set]
    · rename_i r' hcs
      refine key_step _ _ _ hcs ?_ h
      intro x
      rw [OMap.get_remove]

/-! ### the new mappings and the keys of a batch -/

theorem mapDocs_spec {v : View} {docs : OMap Document} {order : List Bytes} {maps : Maps}
    (h : mapDocs v docs order = some maps) :
    maps.map (·.1) = order ∧ ∀ m ∈ maps, mapDoc v docs m.1 = some m.2 := by
  induction order generalizing maps with
  | nil => simp [mapDocs] at h; subst h; simp
  | cons id ids ih =>
    simp only [mapDocs, Option.bind_eq_some_iff, Option.map_eq_some_iff] at h
    obtain ⟨m, hm, ms, hms, rfl⟩ := h
    obtain ⟨h1, h2⟩ := ih hms
    refine ⟨by simp [h1], ?_⟩
    intro x hx
    simp only [List.mem_cons] at hx
    rcases hx with rfl | hx
    · exact hm
    · exact h2 x hx

theorem lastWith_append (a b : List EntryMapping) (id : Bytes) :
    lastWith (a ++ b) id = (lastWith b id).or (lastWith a id) := by
  induction a with
  | nil => simp [lastWith]
  | cons x a ih => simp only [List.cons_append, lastWith, ih, Option.or_assoc]

theorem lastWith_own (h : Header) (ms : List (Bytes × Bytes)) (key id : Bytes) :
    lastWith ((ms.filter fun kv => kv.1 = key).map fun kv => (⟨h, kv.2⟩ : EntryMapping)) id =
      if h.id = id then (lastValue ms key).map fun x => ⟨h, x⟩ else none := by
  induction ms with
  | nil => simp [lastWith, lastValue]
  | cons kv ms ih =>
    by_cases hk : kv.1 = key
    · simp only [List.filter_cons, hk, decide_true, if_true, List.map_cons, lastWith, ih, lastValue]
      by_cases hi : h.id = id
      · simp only [hi, if_true]
        cases lastValue ms key <;> simp
      · simp [hi]
    · simp only [List.filter_cons, hk, decide_false, Bool.false_eq_true, if_false, ih, lastValue,
        Option.or_none]

/-- The entry of a batch for a document. -/
def mapsGet (maps : Maps) (id : Bytes) : Option (Header × List (Bytes × Bytes)) :=
  (maps.find? fun m => m.1 = id).map (·.2)

theorem lastWith_newFor {maps : Maps} (hid : ∀ m ∈ maps, m.2.1.id = m.1)
    (hnd : (maps.map (·.1)).Nodup) (key id : Bytes) :
    lastWith (newFor maps key) id =
      (mapsGet maps id).bind fun m => (lastValue m.2 key).map fun x => ⟨m.1, x⟩ := by
  induction maps with
  | nil => simp [newFor, lastWith, mapsGet]
  | cons m maps ih =>
    simp only [List.map_cons, List.nodup_cons] at hnd
    have hid' : ∀ x ∈ maps, x.2.1.id = x.1 := fun x hx => hid x (by simp [hx])
    have hm := hid m (by simp)
    have := ih hid' hnd.2
    simp only [newFor, List.flatMap_cons, lastWith_append] at this ⊢
    rw [this, lastWith_own]
    simp only [mapsGet, List.find?_cons]
    by_cases hi : m.1 = id
    · subst hi
      have hnone : (maps.find? fun x => decide (x.1 = m.1)) = none := by
        rw [List.find?_eq_none]
        intro x hx
        simp only [decide_eq_true_eq]
        intro e
        exact hnd.1 (List.mem_map.mpr ⟨x, hx, e⟩)
      rw [hnone]
      simp [hm]
    · have : m.2.1.id ≠ id := by rw [hm]; exact hi
      simp [this, hi]

theorem mapsGet_some {maps : Maps} {id : Bytes} {m : Header × List (Bytes × Bytes)}
    (h : mapsGet maps id = some m) : (id, m) ∈ maps := by
  unfold mapsGet at h
  obtain ⟨x, hx, rfl⟩ := Option.map_eq_some_iff.mp h
  have h1 := List.find?_some hx
  have h2 := List.mem_of_find?_eq_some hx
  simp only [decide_eq_true_eq] at h1
  subst h1
  exact h2

theorem mapsGet_of_mem {maps : Maps} (hnd : (maps.map (·.1)).Nodup) {id : Bytes}
    {m : Header × List (Bytes × Bytes)} (h : (id, m) ∈ maps) : mapsGet maps id = some m := by
  induction maps with
  | nil => simp at h
  | cons x maps ih =>
    simp only [List.map_cons, List.nodup_cons] at hnd
    simp only [List.mem_cons] at h
    rcases h with rfl | h
    · simp [mapsGet]
    · have : x.1 ≠ id := fun e => hnd.1 (List.mem_map.mpr ⟨(id, m), h, e.symm⟩)
      have := ih hnd.2 h
      simp only [mapsGet, List.find?_cons] at this ⊢
      simp [*]

theorem mem_cleanFor {dm : OMap (List Bytes)} {maps : Maps} (hnd : (maps.map (·.1)).Nodup)
    {key id : Bytes} :
    id ∈ cleanFor dm maps key ↔ ∃ m, mapsGet maps id = some m ∧
      key ∈ (dm.get id).getD [] ∧ key ∉ keysOf m.2 := by
  unfold cleanFor
  simp only [List.mem_map, List.mem_filter, List.contains_eq_mem, Bool.and_eq_true,
    decide_eq_true_eq, Bool.not_eq_true', decide_eq_false_iff_not]
  constructor
  · rintro ⟨m, ⟨hm, h1, h2⟩, rfl⟩
    exact ⟨m.2, mapsGet_of_mem hnd hm, h1, h2⟩
  · rintro ⟨m, hm, h1, h2⟩
    exact ⟨(id, m), ⟨mapsGet_some hm, h1, h2⟩, rfl⟩

theorem foldl_set_get {p : Bytes → Prop} [DecidablePred p] (l : List Bytes) (s : OMap Unit) (x : Bytes) :
    ((l.foldl (fun (s : OMap Unit) k => if p k then s else s.set k ()) s).get x).isSome ↔
      (s.get x).isSome ∨ (x ∈ l ∧ ¬ p x) := by
  induction l generalizing s with
  | nil => simp
  | cons k l ih =>
    simp only [List.foldl_cons, ih, List.mem_cons]
    by_cases hp : p k
    · simp only [hp, if_true]
      constructor
      · rintro (h | ⟨h, h'⟩)
        · exact .inl h
        · exact .inr ⟨.inr h, h'⟩
      · rintro (h | ⟨rfl | h, h'⟩)
        · exact .inl h
        · exact absurd hp h'
        · exact .inr ⟨h, h'⟩
    · simp only [hp, if_false, OMap.get_set]
      by_cases hk : k = x
      · subst hk; simp [hp]
      · have : x ≠ k := fun e => hk e.symm
        simp [hk, this]

theorem mem_keysOf {ms : List (Bytes × Bytes)} {k : Bytes} : k ∈ keysOf ms ↔ k ∈ ms.map (·.1) := by
  simp only [keysOf, List.mem_eraseDups]

theorem lastValue_isSome {ms : List (Bytes × Bytes)} {k : Bytes} :
    (lastValue ms k).isSome ↔ k ∈ ms.map (·.1) := by
  induction ms with
  | nil => simp [lastValue]
  | cons kv ms ih =>
    simp only [lastValue, Option.isSome_or, Bool.or_eq_true, ih, List.map_cons, List.mem_cons]
    by_cases hk : kv.1 = k
    · simp [hk]
    · have : k ≠ kv.1 := fun e => hk e.symm
      simp [hk, this]

theorem mem_allKeys {dm : OMap (List Bytes)} {maps : Maps} {key : Bytes} :
    key ∈ allKeys dm maps ↔ (newFor maps key ≠ [] ∨ cleanFor dm maps key ≠ []) := by
  unfold allKeys
  rw [OMap.mem_keys_iff, foldl_set_get (p := fun k => newFor maps k = [] ∧ cleanFor dm maps k = [])]
  simp only [OMap.get_empty, Option.isSome_none, Bool.false_eq_true, false_or]
  constructor
  · rintro ⟨_, h⟩
    by_cases h1 : newFor maps key = []
    · exact .inr fun h2 => h ⟨h1, h2⟩
    · exact .inl h1
  · intro h
    refine ⟨?_, fun ⟨h1, h2⟩ => by rcases h with h | h <;> contradiction⟩
    rcases h with h | h
    · obtain ⟨x, hx⟩ := List.exists_mem_of_ne_nil _ h
      simp only [newFor, List.mem_flatMap, List.mem_map, List.mem_filter, decide_eq_true_eq] at hx
      obtain ⟨m, hm, kv, ⟨hkv, rfl⟩, _⟩ := hx
      refine List.mem_flatMap.mpr ⟨m, hm, ?_⟩
      rw [List.mem_append]
      exact .inl (mem_keysOf.mpr (List.mem_map.mpr ⟨kv, hkv, rfl⟩))
    · obtain ⟨x, hx⟩ := List.exists_mem_of_ne_nil _ h
      simp only [cleanFor, List.mem_map, List.mem_filter, List.contains_eq_mem, Bool.and_eq_true,
        decide_eq_true_eq] at hx
      obtain ⟨m, ⟨hm, h1, _⟩, _⟩ := hx
      exact List.mem_flatMap.mpr ⟨m, hm, by simp [h1]⟩

theorem updateDocMap_get {maps : Maps} (hnd : (maps.map (·.1)).Nodup) (dm : OMap (List Bytes))
    (id : Bytes) :
    (updateDocMap dm maps).get id =
      match mapsGet maps id with
      | some m => some (keysOf m.2)
      | none => dm.get id := by
  unfold updateDocMap
  induction maps generalizing dm with
  | nil => simp [mapsGet]
  | cons m maps ih =>
    simp only [List.map_cons, List.nodup_cons] at hnd
    simp only [List.foldl_cons]
    rw [ih hnd.2]
    by_cases hi : m.1 = id
    · subst hi
      have hnone : mapsGet maps m.1 = none := by
        cases hg : mapsGet maps m.1 with
        | none => rfl
        | some x => exact absurd (List.mem_map.mpr ⟨_, mapsGet_some hg, rfl⟩) hnd.1
      have hself : mapsGet (m :: maps) m.1 = some m.2 := by simp [mapsGet]
      rw [hnone, hself]
      simp
    · have : mapsGet (m :: maps) id = mapsGet maps id := by
        simp [mapsGet, List.find?_cons, hi]
      rw [this, OMap.get_set_ne _ hi]

/-! ### one batch -/

/-- Every stored document carries its own id. -/
def OwnIds (docs : OMap Document) : Prop := ∀ id d, docs.get id = some d → d.header.id = id

theorem expect_mapDoc {v : View} {docs : OMap Document} {id : Bytes}
    {m : Header × List (Bytes × Bytes)} (h : mapDoc v docs id = some m) (key : Bytes) :
    expect v (docs.get id) key = (lastValue m.2 key).map fun x => ⟨m.1, x⟩ := by
  unfold mapDoc at h
  unfold expect
  split at h
  · rename_i hd
    cases h
    rw [hd]; simp [lastValue]
  · rename_i d hd
    obtain ⟨ms, hms, rfl⟩ := Option.map_eq_some_iff.mp h
    rw [hd]; simp [hms]

/-- One batch: the mapped documents show what they map to, the others are untouched. -/
theorem mapBatch_spec {v : View} {docs : OMap Document} {order : List Bytes}
    {es es' : OMap ViewEntry} {dm dm' : OMap (List Bytes)}
    (h : mapBatch v docs order (es, dm) = .ok (es', dm')) (hwf : ViewWF es) (hown : OwnIds docs)
    (hnd : order.Nodup) (hrec : ∀ id ∈ order, Recorded es dm id) :
    ViewWF es' ∧ (∀ id ∈ order, Shows v es' id (docs.get id) ∧ Recorded es' dm' id) ∧
      (∀ id, id ∉ order → (∀ key, found es' key id = found es key id) ∧ dm'.get id = dm.get id) := by
  unfold mapBatch at h
  split at h
  · cases h
  · rename_i maps hmaps
    obtain ⟨hord, hmd⟩ := mapDocs_spec hmaps
    have hnd' : (maps.map (·.1)).Nodup := by rw [hord]; exact hnd
    have hid : ∀ m ∈ maps, m.2.1.id = m.1 := by
      intro m hm
      have := hmd m hm
      unfold mapDoc at this
      split at this
      · have := Option.some.inj this
        rw [← this]
      · rename_i d hd
        obtain ⟨ms, _, he⟩ := Option.map_eq_some_iff.mp this
        rw [← he]
        exact hown _ _ hd
    split at h
    · cases h
    · rename_i es1 hup
      simp only [Except.ok.injEq, Prod.mk.injEq] at h
      obtain ⟨rfl, rfl⟩ := h
      obtain ⟨hw, hf⟩ := updateEntries_spec hup hwf (OMap.keys_nodup _) (fun k hk =>
        (mem_allKeys.mp hk).symm)
      have hf' : ∀ key id, found es1 key id = (lastWith (newFor maps key) id).or
          (if id ∈ cleanFor dm maps key then none else found es key id) := by
        intro key id
        rw [hf]
        split
        · rfl
        · rename_i hk
          rw [mem_allKeys] at hk
          have h1 : newFor maps key = [] := Classical.not_not.mp fun e => hk (.inl e)
          have h2 : cleanFor dm maps key = [] := Classical.not_not.mp fun e => hk (.inr e)
          simp [h1, h2, lastWith]
      have hmem : ∀ id, id ∈ order ↔ ∃ m, mapsGet maps id = some m := by
        intro id
        rw [← hord]
        constructor
        · intro hi
          obtain ⟨m, hm, rfl⟩ := List.mem_map.mp hi
          exact ⟨m.2, mapsGet_of_mem hnd' hm⟩
        · rintro ⟨m, hm⟩
          exact List.mem_map.mpr ⟨_, mapsGet_some hm, rfl⟩
      have hshow : ∀ id ∈ order, ∀ key, found es1 key id = expect v (docs.get id) key := by
        intro id hi key
        obtain ⟨m, hm⟩ := (hmem id).mp hi
        have hexp := expect_mapDoc (hmd _ (mapsGet_some hm)) key
        simp only at hexp
        rw [hexp, hf', lastWith_newFor hid hnd', hm]
        simp only [Option.bind_some]
        cases hl : lastValue m.2 key with
        | some x => simp
        | none =>
          simp only [Option.map_none, Option.none_or]
          have hnk : key ∉ keysOf m.2 := by
            rw [mem_keysOf, ← lastValue_isSome, hl]; simp
          split
          · rfl
          · rename_i hc
            rw [mem_cleanFor hnd'] at hc
            have hnr : key ∉ (dm.get id).getD [] := fun hk => hc ⟨m, hm, hk, hnk⟩
            have := mt (hrec id hi key).mpr hnr
            cases hfd : found es key id with
            | none => rfl
            | some x => rw [hfd] at this; simp at this
      have hsome : ∀ id ∈ order, ∀ d, docs.get id = some d → (v.map d).isSome := by
        intro id hi d hd
        obtain ⟨m, hm⟩ := (hmem id).mp hi
        have := hmd _ (mapsGet_some hm)
        simp only [mapDoc, hd] at this
        obtain ⟨ms, hms, _⟩ := Option.map_eq_some_iff.mp this
        simp [hms]
      refine ⟨hw, fun id hi => ⟨⟨hsome id hi, hshow id hi⟩, ?_⟩, ?_⟩
      · intro key
        obtain ⟨m, hm⟩ := (hmem id).mp hi
        have hexp := expect_mapDoc (hmd _ (mapsGet_some hm)) key
        simp only at hexp
        rw [updateDocMap_get hnd', hm, hshow id hi key, hexp]
        simp only [Option.getD_some, Option.isSome_map]
        rw [lastValue_isSome, mem_keysOf]
      · intro id hi
        have hg : mapsGet maps id = none := by
          cases hg : mapsGet maps id with
          | none => rfl
          | some m => exact absurd ((hmem id).mpr ⟨m, hg⟩) hi
        refine ⟨?_, by rw [updateDocMap_get hnd', hg]⟩
        intro key
        rw [hf', lastWith_newFor hid hnd', hg]
        have : id ∉ cleanFor dm maps key := by
          rw [mem_cleanFor hnd', hg]; simp
        simp [this]

end Bonsai.Store
