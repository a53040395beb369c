import Verif.Views.C29
import Verif.Store.Atomic

/-!
# C30: unique views
-/
set_option linter.unusedSimpArgs false

namespace Bonsai.Store
open Bonsai Bonsai.Names

/-! ### at most one mapping per key -/

theorem addMappings_unique {v : View} (hu : v.policy = .unique) : ∀ {ns ms ms' : List EntryMapping},
    addMappings v ms ns = .ok ms' → ms.length ≤ 1 → ms'.length ≤ 1 := by
  intro ns
  induction ns with
  | nil => intro ms ms' h hl; cases h; exact hl
  | cons n ns ih =>
    intro ms ms' h hl
    simp only [addMappings] at h
    split at h
    · cases h
    · rename_i hc
      refine ih h ?_
      match ms, hl with
      | [], _ => simp [upsert]
      | [m], _ =>
        simp only [uniqueConflict, hu] at hc
        split at hc
        · rename_i he; simp [upsert, he]
        · cases hc

/-- No key of the view has two mappings. -/
def UniqueWF (es : OMap ViewEntry) : Prop := ∀ key, (mappingsOf (es.get key)).length ≤ 1

theorem compareSwap_unique {v : View} (hu : v.policy = .unique) {r r' : Bool} {key : Bytes}
    {old res : Option ViewEntry} {clean : List Bytes} {new : List EntryMapping}
    (h : compareSwap v r key old clean new = .ok (res, r')) (ho : (mappingsOf old).length ≤ 1) :
    (mappingsOf res).length ≤ 1 := by
  have hent : (old.getD ⟨v.version, key, [], []⟩).mappings = mappingsOf old := by
    cases old <;> rfl
  have hfl : ((mappingsOf old).filter fun m => !clean.contains m.source.id).length ≤ 1 :=
    Nat.le_trans (List.length_filter_le _ _) ho
  unfold compareSwap at h
  simp only [] at h
  split at h
  · split at h
    · cases h
    · rename_i ms hms
      rw [hent] at hms
      have := addMappings_unique hu hms ho
      split at h
      · simp only [Except.ok.injEq, Prod.mk.injEq] at h
        obtain ⟨rfl, rfl⟩ := h
        simp only [mappingsOf, Option.map_some, Option.getD_some, hent]
        exact ho
      · split at h
        · cases h
        · rename_i e r1 hr
          obtain ⟨hm, _⟩ := reduceEntry_mappings hr
          simp only [Except.ok.injEq, Prod.mk.injEq] at h
          obtain ⟨rfl, rfl⟩ := h
          simp only [mappingsOf, Option.map_some, Option.getD_some, hm]
          exact this
  · split at h
    · simp only [Except.ok.injEq, Prod.mk.injEq] at h
      obtain ⟨rfl, rfl⟩ := h
      simp [mappingsOf]
    · split at h
      · cases h
      · rename_i e1 r1 hr1
        obtain ⟨hm1, _⟩ := reduceEntry_mappings hr1
        simp only [hent] at hm1
        split at h
        · cases h
        · rename_i ms hms
          rw [hm1] at hms
          have := addMappings_unique hu hms hfl
          split at h
          · simp only [Except.ok.injEq, Prod.mk.injEq] at h
            obtain ⟨rfl, rfl⟩ := h
            simp only [mappingsOf, Option.map_some, Option.getD_some, hm1]
            exact hfl
          · split at h
            · cases h
            · rename_i e2 r2 hr2
              obtain ⟨hm2, _⟩ := reduceEntry_mappings hr2
              simp only [Except.ok.injEq, Prod.mk.injEq] at h
              obtain ⟨rfl, rfl⟩ := h
              simp only [mappingsOf, Option.map_some, Option.getD_some, hm2]
              exact this

theorem updateEntries_unique {v : View} (hu : v.policy = .unique) {clean : Bytes → List Bytes}
    {new : Bytes → List EntryMapping} : ∀ {ks : List Bytes} {r : Bool} {es es' : OMap ViewEntry},
    updateEntries v clean new r es ks = .ok es' → UniqueWF es → UniqueWF es' := by
  intro ks
  induction ks with
  | nil => intro r es es' h hw; cases h; exact hw
  | cons k ks ih =>
    intro r es es' h hw
    simp only [updateEntries] at h
    split at h
    · cases h
    · rename_i e r' hcs
      refine ih h ?_
      intro key
      rw [OMap.get_set]
      split
      · exact compareSwap_unique hu hcs (hw k)
      · exact hw key
    · rename_i r' hcs
      refine ih h ?_
      intro key
      rw [OMap.get_remove]
      split
      · simp [mappingsOf]
      · exact hw key

theorem mapBatch_unique {v : View} (hu : v.policy = .unique) {docs : OMap Document}
    {order : List Bytes} {es es' : OMap ViewEntry} {dm dm' : OMap (List Bytes)}
    (h : mapBatch v docs order (es, dm) = .ok (es', dm')) (hw : UniqueWF es) : UniqueWF es' := by
  unfold mapBatch at h
  split at h
  · cases h
  · split at h
    · cases h
    · rename_i hup
      cases h
      exact updateEntries_unique hu hup hw

theorem mapBatches_unique {v : View} (hu : v.policy = .unique) {docs : OMap Document} :
    ∀ {bs : List (List Bytes)} {es es' : OMap ViewEntry} {dm dm' : OMap (List Bytes)},
    mapBatches v docs bs (es, dm) = .ok (es', dm') → UniqueWF es → UniqueWF es' := by
  intro bs
  induction bs with
  | nil => intro es es' dm dm' h hw; cases h; exact hw
  | cons b bs ih =>
    intro es es' dm dm' h hw
    simp only [mapBatches] at h
    split at h
    · cases h
    · rename_i st hb
      obtain ⟨es1, dm1⟩ := st
      exact ih h (mapBatch_unique hu hb hw)

theorem runOps_unique {s : Schema} (hdv : DistinctViews s) {v : View} (hv : v ∈ s.views)
    (hu : v.policy = .unique) : ∀ {ops : List Operation} {t ch t' ch' rs},
    runOps s t ch ops = .ok (t', ch', rs) → UniqueWF (t.entries v.name) →
    UniqueWF (t'.entries v.name) := by
  intro ops
  induction ops with
  | nil => intro t ch t' ch' rs h ho; cases h; exact ho
  | cons op ops ih =>
    intro t ch t' ch' rs h ho
    simp only [runOps] at h
    split at h
    · cases h
    · rename_i t1 r1 h1
      split at h
      · cases h
      · split at h
        · cases h
        · rename_i h2
          cases h
          refine ih h2 ?_
          rcases execOp_shape h1 with rfl | ⟨id, od, del, hid, hup, _⟩
          · exact ho
          · by_cases hc : v.name.collection = op.collection
            · rw [← hc] at hup
              have hb := updateEagerViews_this hdv hv (by rw [hu]; rfl) hup
              exact mapBatch_unique hu hb ho
            · rw [(updateEagerViews_other hdv hup hv (.inl hc)).1]
              exact ho

theorem vexec_unique {s : Schema} (hdv : DistinctViews s) {v : View} (hv : v ∈ s.views)
    (hu : v.policy = .unique) {σ₀ σ : VSys} (hst : VStart v σ₀) (he : VExec s σ₀ σ) :
    UniqueWF (σ.db.trees.entries v.name) := by
  induction he with
  | refl => intro key; rw [hst.entries]; simp [mappingsOf]
  | @step τ τ' hex hs ih =>
    obtain ⟨hinv, hk⟩ := vexec_inv hdv hv (vstart_inv hst) hst.known hex
    cases hs with
    | transaction hp _ =>
      unfold prepare at hp
      split at hp
      · split at hp
        · cases hp
        · rename_i hr
          cases hp
          exact (runOps_unique hdv hv hu hr ih : UniqueWF _)
      · cases hp
    | @chunk pre post w m p tid bs es dm hj _ _ _ hm =>
      show UniqueWF ((chunkTrees τ.db.trees w (chunkIds p) es dm).entries v.name)
      by_cases hwv : v.name = w.name
      · have hself : (⟨w, m, some p⟩ : MapJob) ∈ τ.jobs := by rw [hj]; simp
        have := distinct_inj hdv hv (hk _ hself) hwv
        simp only at this
        subst this
        simp only [chunkTrees, upd_self]
        exact mapBatches_unique hu hm ih
      · simp only [chunkTrees, upd_ne _ _ hwv]
        exact ih
    | other => exact ih
    | begin => exact ih
    | scan => exact ih
    | done => exact ih
    | fail => exact ih
    | restart => exact ih

theorem eq_of_length_le_one {α : Type} {l : List α} (h : l.length ≤ 1) {a b : α} (ha : a ∈ l)
    (hb : b ∈ l) : a = b := by
  match l, h with
  | [x], _ => simp at ha hb; rw [ha, hb]

/-- Two documents of the view's collection emit the same key. -/
def Clash (v : View) (docs : OMap Document) : Prop :=
  ∃ id₁ d₁ id₂ d₂ key x y, id₁ ≠ id₂ ∧ docs.get id₁ = some d₁ ∧ docs.get id₂ = some d₂ ∧
    Emits v d₁ key x ∧ Emits v d₂ key y

theorem no_clash {v : View} {t : Trees} (ho : AllOwn t) (hwf : ViewOK v t)
    (hs : ∀ id, Shows v (t.entries v.name) id ((t.docsOf v).get id))
    (hq : UniqueWF (t.entries v.name)) : ¬ Clash v (t.docsOf v) := by
  rintro ⟨id₁, d₁, id₂, d₂, key, x, y, hne, h1, h2, ⟨m1, hm1, e1⟩, ⟨m2, hm2, e2⟩⟩
  have hmem : ∀ id d ms z, (t.docsOf v).get id = some d → v.map d = some ms → (key, z) ∈ ms →
      ∃ m ∈ mappingsOf ((t.entries v.name).get key), m.source.id = id := by
    intro id d ms z hd hms hin
    obtain ⟨w, hw⟩ := Option.isSome_iff_exists.mp
      (lastValue_isSome.mpr (List.mem_map.mpr ⟨_, hin, rfl⟩) : (lastValue ms key).isSome)
    exact ⟨⟨d.header, w⟩, (shows_all_mem hwf.1 hs key _).mpr ⟨id, d, ms, hd, hms, rfl, hw⟩,
      ho _ _ _ hd⟩
  obtain ⟨a, ha, ia⟩ := hmem _ _ _ _ h1 hm1 e1
  obtain ⟨b, hb, ib⟩ := hmem _ _ _ _ h2 hm2 e2
  have := eq_of_length_le_one (hq key) ha hb
  subst this
  exact hne (ia.symm.trans ib)

/-! ### C30, first half -/

/-- **C30**: in every state reached from one where nothing was left to map, a unique view never has
two documents per key: no two documents emit the same key, and every key has at most one mapping. -/
theorem C30_unique_keys (s : Schema) (hdv : DistinctViews s) (v : View) (hv : v ∈ s.views)
    (hu : v.policy = .unique) (σ₀ σ : VSys) (hst : VStart v σ₀)
    (hnone : ∀ id, (σ₀.db.trees.invalidated v.name).get id = none) (he : VExec s σ₀ σ) :
    ¬ Clash v (σ.db.trees.docsOf v) ∧ ∀ key, (σ.at v key).length ≤ 1 := by
  have hq := vexec_unique hdv hv hu hst he
  refine ⟨?_, hq⟩
  have hpol : v.policy.isEager = true := by rw [hu]; rfl
  rintro ⟨id₁, d₁, id₂, d₂, key, x, y, hne, h1, h2, ⟨m1, hm1, e1⟩, ⟨m2, hm2, e2⟩⟩
  obtain ⟨hinv, _⟩ := vexec_inv hdv hv (vstart_inv hst) hst.known he
  have hmem : ∀ id d ms z, (σ.db.trees.docsOf v).get id = some d → v.map d = some ms → (key, z) ∈ ms →
      ∃ m ∈ σ.at v key, m.source.id = id := by
    intro id d ms z hd hms hin
    obtain ⟨w, hw⟩ := Option.isSome_iff_exists.mp
      (lastValue_isSome.mpr (List.mem_map.mpr ⟨_, hin, rfl⟩) : (lastValue ms key).isSome)
    exact ⟨⟨d.header, w⟩, (C29_eager_view_always_current s hdv v hv hpol σ₀ σ hst hnone he key _).mpr
      ⟨id, d, ms, hd, hms, rfl, hw⟩, hinv.own _ _ _ hd⟩
  obtain ⟨a, ha, ia⟩ := hmem _ _ _ _ h1 hm1 e1
  obtain ⟨b, hb, ib⟩ := hmem _ _ _ _ h2 hm2 e2
  have := eq_of_length_le_one (hq key) ha hb
  subst this
  exact hne (ia.symm.trans ib)

/-- **C30**: a transaction whose result — what the plain map of documents would become — gives two
documents the same key fails, and changes nothing. -/
theorem C30_duplicates_rejected (s : Schema) (hdv : DistinctViews s) (S : Bytes → Prop)
    (hS : CollisionFree s.digest S) (v : View) (hv : v ∈ s.views)
    (hu : v.policy = .unique) (σ₀ σ : VSys) (hst : VStart v σ₀)
    (hnone : ∀ id, (σ₀.db.trees.invalidated v.name).get id = none) (he : VExec s σ₀ σ)
    (hwf : DocsWF s.digest S σ.db.trees.docs) (tid : Nat) (htid : σ.db.lastTid ≤ tid)
    (ops : List Operation) (hw : Writes S ops) (a' : AbsStore) (rs : List OpResult)
    (hspec : SpecRun s σ.db.trees.abs ops (.ok (a', rs)))
    (hclash : ∃ id₁ a₁ id₂ a₂ key x y, id₁ ≠ id₂ ∧ a' v.name.collection id₁ = some a₁ ∧
      a' v.name.collection id₂ = some a₂ ∧ Emits v ⟨headerOf s.digest id₁ a₁, a₁.2⟩ key x ∧
      Emits v ⟨headerOf s.digest id₂ a₂, a₂.2⟩ key y) :
    ∃ e, applyToRoots s σ.db tid ops = (.error e, σ.db) := by
  unfold applyToRoots
  cases hp : prepare s σ.db.trees ops with
  | error e => exact ⟨e, rfl⟩
  | ok p =>
    exfalso
    obtain ⟨t', ch, rs'⟩ := p
    have href := prepare_refines hS hwf hw
    rw [hp] at href
    obtain ⟨hwf', _, hrun⟩ := href
    have hda := SpecRun_deterministic hrun hspec
    simp only [Except.ok.injEq, Prod.mk.injEq] at hda
    obtain ⟨rfl, _⟩ := hda
    have hex : VExec s σ₀ (σ.commit tid (some ch) t') := .step he (.transaction hp htid)
    refine (C30_unique_keys s hdv v hv hu σ₀ _ hst hnone hex).1 ?_
    obtain ⟨id₁, a₁, id₂, a₂, key, x, y, hne, h1, h2, e1, e2⟩ := hclash
    have hdoc : ∀ id a, t'.abs v.name.collection id = some a →
        (t'.docs v.name.collection).get id = some ⟨headerOf s.digest id a, a.2⟩ := by
      intro id a ha
      simp only [Trees.abs, Option.map_eq_some_iff] at ha
      obtain ⟨d, hd, rfl⟩ := ha
      rw [hd, Option.some.injEq]
      obtain ⟨w1, w2, _⟩ := hwf' _ _ _ hd
      obtain ⟨⟨i, ⟨n, sh⟩⟩, c⟩ := d
      simp only at w1 w2
      subst w1 w2
      rfl
    exact ⟨id₁, _, id₂, _, key, x, y, hne, hdoc _ _ h1, hdoc _ _ h2, e1, e2⟩

/-! ### C30, second half: what a rejection means -/

theorem addMappings_conflict {v : View} {id : Bytes} : ∀ {ns ms : List EntryMapping} {n c e},
    addMappings v ms ns = .error (.uniqueViolation n c e) → (∀ x ∈ ns, x.source.id = id) →
    (v.policy = .unique ∧ n = v.name) ∧ ns ≠ [] ∧ ∃ m ∈ ms, m.source.id ≠ id := by
  intro ns
  induction ns with
  | nil => intro ms n c e h; cases h
  | cons x ns ih =>
    intro ms n c e h hid
    have hx := hid x (by simp)
    simp only [addMappings] at h
    split at h
    · rename_i ex hc
      cases h
      unfold uniqueConflict at hc
      split at hc
      · rename_i m ms' hp
        split at hc
        · cases hc
        · rename_i hne
          exact ⟨⟨hp, rfl⟩, by simp, m, by simp, by rw [← hx]; exact hne⟩
      · cases hc
    · obtain ⟨h1, _, m, hm, hne⟩ := ih h (fun y hy => hid y (by simp [hy]))
      refine ⟨h1, by simp, ?_⟩
      have hmi := findId_upsert ms x m.source.id
      rw [if_neg (by rw [hx]; exact fun e => hne e.symm)] at hmi
      have hs : (findId (upsert ms x) m.source.id).isSome := by
        unfold findId
        rw [List.find?_isSome]
        exact ⟨m, hm, by simp⟩
      rw [hmi] at hs
      obtain ⟨m', hm'⟩ := Option.isSome_iff_exists.mp hs
      obtain ⟨a, b⟩ := findId_mem hm'
      exact ⟨m', a, by rw [b]; exact hne⟩

theorem reduceEntry_not_unique {v : View} {k r e n c x} :
    reduceEntry v k r e ≠ .error (.uniqueViolation n c x) := by
  unfold reduceEntry
  split
  · split <;> simp
  · simp

theorem compareSwap_conflict {v : View} {id : Bytes} {r : Bool} {key : Bytes} {old : Option ViewEntry}
    {clean : List Bytes} {new : List EntryMapping} {n c e}
    (h : compareSwap v r key old clean new = .error (.uniqueViolation n c e))
    (hid : ∀ x ∈ new, x.source.id = id) :
    (v.policy = .unique ∧ n = v.name) ∧ new ≠ [] ∧ ∃ m ∈ mappingsOf old, m.source.id ≠ id := by
  have hent : (old.getD ⟨v.version, key, [], []⟩).mappings = mappingsOf old := by
    cases old <;> rfl
  unfold compareSwap at h
  simp only [] at h
  split at h
  · split at h
    · rename_i hms
      cases h
      rw [hent] at hms
      exact addMappings_conflict hms hid
    · split at h
      · cases h
      · split at h
        · rename_i hr; cases h; exact absurd hr reduceEntry_not_unique
        · cases h
  · split at h
    · cases h
    · split at h
      · rename_i hr; cases h; exact absurd hr reduceEntry_not_unique
      · rename_i e1 r1 hr1
        obtain ⟨hm1, _⟩ := reduceEntry_mappings hr1
        simp only [hent] at hm1
        split at h
        · rename_i hms
          cases h
          rw [hm1] at hms
          obtain ⟨a, b, m, hm, hne⟩ := addMappings_conflict hms hid
          exact ⟨a, b, m, (List.mem_filter.mp hm).1, hne⟩
        · split at h
          · cases h
          · split at h
            · rename_i hr; cases h; exact absurd hr reduceEntry_not_unique
            · cases h

theorem updateEntries_conflict {v : View} {id : Bytes} {clean : Bytes → List Bytes}
    {new : Bytes → List EntryMapping} (hid : ∀ k, ∀ x ∈ new k, x.source.id = id) {n c e} :
    ∀ {ks : List Bytes} {r : Bool} {es : OMap ViewEntry},
    updateEntries v clean new r es ks = .error (.uniqueViolation n c e) → ks.Nodup →
    (v.policy = .unique ∧ n = v.name) ∧ ∃ k ∈ ks, new k ≠ [] ∧
      ∃ m ∈ mappingsOf (es.get k), m.source.id ≠ id := by
  intro ks
  induction ks with
  | nil => intro r es h; cases h
  | cons k ks ih =>
    intro r es h hnd
    simp only [List.nodup_cons] at hnd
    simp only [updateEntries] at h
    have rest : ∀ (es1 : OMap ViewEntry) r', (∀ x, x ≠ k → es1.get x = es.get x) →
        updateEntries v clean new r' es1 ks = .error (.uniqueViolation n c e) →
        (v.policy = .unique ∧ n = v.name) ∧ ∃ x ∈ k :: ks, new x ≠ [] ∧
          ∃ m ∈ mappingsOf (es.get x), m.source.id ≠ id := by
      intro es1 r' hg hr
      obtain ⟨a, x, hx, hn, m, hm, hne⟩ := ih hr hnd.2
      have hxk : x ≠ k := fun e => hnd.1 (e ▸ hx)
      rw [hg x hxk] at hm
      exact ⟨a, x, by simp [hx], hn, m, hm, hne⟩
    split at h
    · rename_i hcs
      cases h
      obtain ⟨a, hn, m, hm, hne⟩ := compareSwap_conflict hcs (hid k)
      exact ⟨a, k, by simp, hn, m, hm, hne⟩
    · refine rest _ _ ?_ h
      intro x hx; rw [OMap.get_set_ne _ (fun e => hx e.symm)]
    · refine rest _ _ ?_ h
      intro x hx; rw [OMap.get_remove_ne _ (fun e => hx e.symm)]

/-- A unique violation while mapping one document: that document emits a key at which the view holds
another document. -/
theorem mapBatch_conflict {v : View} {docs : OMap Document} {id : Bytes} {es : OMap ViewEntry}
    {dm : OMap (List Bytes)} (hown : OwnIds docs) {n c e}
    (h : mapBatch v docs [id] (es, dm) = .error (.uniqueViolation n c e)) :
    (v.policy = .unique ∧ n = v.name) ∧ ∃ d key x, docs.get id = some d ∧ Emits v d key x ∧
      ∃ m ∈ mappingsOf (es.get key), m.source.id ≠ id := by
  unfold mapBatch at h
  split at h
  · cases h
  · rename_i maps hmaps
    split at h
    · rename_i hup
      cases h
      obtain ⟨hord, hmd⟩ := mapDocs_spec hmaps
      have hsrc : ∀ k, ∀ x ∈ newFor maps k, ∃ d ms, docs.get id = some d ∧ v.map d = some ms ∧
          x.source = d.header ∧ (k, x.value) ∈ ms := by
        intro k x hx
        simp only [newFor, List.mem_flatMap, List.mem_map, List.mem_filter, decide_eq_true_eq] at hx
        obtain ⟨m, hm, kv, ⟨hkv, rfl⟩, rfl⟩ := hx
        have hmid : m.1 = id := by
          have : m.1 ∈ maps.map (·.1) := List.mem_map.mpr ⟨m, hm, rfl⟩
          rw [hord] at this
          simpa using this
        have := hmd m hm
        rw [hmid] at this
        unfold mapDoc at this
        split at this
        · have := Option.some.inj this
          rw [← this] at hkv
          simp at hkv
        · rename_i d hd
          obtain ⟨ms, hms, he⟩ := Option.map_eq_some_iff.mp this
          refine ⟨d, ms, hd, hms, ?_, ?_⟩
          · rw [← he]
          · rw [← he] at hkv; exact hkv
      have hid : ∀ k, ∀ x ∈ newFor maps k, x.source.id = id := by
        intro k x hx
        obtain ⟨d, _, hd, _, hs, _⟩ := hsrc k x hx
        rw [hs]; exact hown _ _ hd
      obtain ⟨a, k, _, hn, m, hm, hne⟩ := updateEntries_conflict hid hup (OMap.keys_nodup _)
      refine ⟨a, ?_⟩
      obtain ⟨x, hx⟩ := List.exists_mem_of_ne_nil _ hn
      obtain ⟨d, ms, hd, hms, _, hin⟩ := hsrc k x hx
      exact ⟨d, k, x.value, hd, ⟨ms, hms, hin⟩, m, hm, hne⟩
    · cases h

theorem updateViewList_conflict {id : Bytes} {n c e} : ∀ {vs : List View} {t : Trees},
    updateViewList vs id t = .error (.uniqueViolation n c e) → (vs.map (·.name)).Nodup → AllOwn t →
    ∃ v ∈ vs, v.policy = .unique ∧ v.name = n ∧ ∃ d key x,
      (t.docsOf v).get id = some d ∧ Emits v d key x ∧
      ∃ m ∈ mappingsOf ((t.entries v.name).get key), m.source.id ≠ id := by
  intro vs
  induction vs with
  | nil => intro t h; cases h
  | cons v vs ih =>
    intro t h hnd ho
    simp only [List.map_cons, List.nodup_cons] at hnd
    simp only [updateViewList] at h
    split at h
    · rename_i h1
      cases h
      unfold updateEagerView at h1
      rw [mapBatches_single] at h1
      split at h1
      · rename_i hb
        cases h1
        obtain ⟨⟨hp, hn⟩, hr⟩ := mapBatch_conflict (ho _) hb
        exact ⟨v, by simp, hp, hn.symm, hr⟩
      · cases h1
    · rename_i t1 h1
      unfold updateEagerView at h1
      split at h1
      · cases h1
      · cases h1
        obtain ⟨w, hw, hp, hn, d, key, x, hd, hem, m, hm, hne⟩ := ih h hnd.2 ho
        have hwn : w.name ≠ v.name := fun e => hnd.1 (e ▸ List.mem_map.mpr ⟨w, hw, rfl⟩)
        simp only [upd_ne _ _ hwn] at hm
        exact ⟨w, by simp [hw], hp, hn, d, key, x, hd, hem, m, hm, hne⟩

/-- The document an operation puts into the store. -/
def Puts (op : Operation) (id : Bytes) (d : Document) : Prop :=
  d.header.id = id ∧ op.command.contents = some d.contents ∧
    match op.command with
    | .insert (some i) _ => i = id
    | .update h _ => h.id = id
    | .overwrite i _ => i = id
    | _ => True

theorem updateStored_contents {s : Schema} {c old id check x d h}
    (he : updateStored s c old id check x = .ok (some d, h)) : d.contents = x := by
  unfold updateStored at he
  split at he
  · split at he
    · split at he <;> simp at he
      obtain ⟨rfl, rfl⟩ := he
      rfl
    · cases he
  · split at he
    · simp at he
      obtain ⟨rfl, rfl⟩ := he
      rfl
    · cases he

theorem updateStored_error {s : Schema} {c old id check x n a b} :
    updateStored s c old id check x ≠ .error (.uniqueViolation n a b) := by
  intro h
  unfold updateStored at h
  split at h
  · split at h
    · split at h
      · rename_i hn
        cases h
        unfold Revision.next at hn
        split at hn
        · cases hn
        · split at hn <;> cases hn
      · cases h
      · cases h
    · cases h
  · split at h <;> cases h

/-- A unique violation of one operation. -/
theorem execOp_conflict {s : Schema} {t : Trees} {op : Operation} {n c e}
    (h : execOp s t op = .error (.uniqueViolation n c e)) :
    (∃ id d, Puts op id d ∧ updateEagerViews s op.collection id (t.write op.collection id (some d)) =
        .error (.uniqueViolation n c e)) ∨
      ∃ id, updateEagerViews s op.collection id (t.write op.collection id none) =
        .error (.uniqueViolation n c e) := by
  have hupd : ∀ (c' : QName) (id : Bytes) (check : Option Revision) (x : Bytes),
      execUpdate s c' t id check x = .error (.uniqueViolation n c e) →
      ∃ d, d.header.id = id ∧ d.contents = x ∧
        updateEagerViews s c' id (t.write c' id (some d)) = .error (.uniqueViolation n c e) := by
    intro c' id check x hx
    unfold execUpdate at hx
    split at hx
    · rename_i hu
      cases hx; exact absurd hu updateStored_error
    · cases hx
    · rename_i d hd hu
      split at hx
      · rename_i hst
        cases hx
        exact ⟨d, (updateStored_id hu).1, updateStored_contents hu, hst⟩
      · cases hx
  unfold execOp at h
  split at h
  · rename_i oid x hcmd
    unfold execInsert at h
    split at h
    · cases h
    · rename_i id hoid
      split at h
      · cases h
      · split at h
        · rename_i hst
          cases h
          refine .inl ⟨id, _, ⟨rfl, by rw [hcmd]; rfl, ?_⟩, hst⟩
          rw [hcmd]
          cases oid with
          | none => trivial
          | some i => simp at hoid; exact hoid
        · cases h
  · rename_i hd x hcmd
    obtain ⟨d, h1, h2, h3⟩ := hupd _ _ _ _ h
    refine .inl ⟨hd.id, d, ⟨h1, by rw [hcmd, h2]; rfl, by rw [hcmd]⟩, h3⟩
  · rename_i i x hcmd
    obtain ⟨d, h1, h2, h3⟩ := hupd _ _ _ _ h
    refine .inl ⟨i, d, ⟨h1, by rw [hcmd, h2]; rfl, by rw [hcmd]⟩, h3⟩
  · rename_i hd _
    unfold execDelete at h
    split at h
    · cases h
    · split at h
      · split at h
        · rename_i hst
          cases h
          exact .inr ⟨hd.id, hst⟩
        · cases h
      · cases h
  · unfold execCheck at h
    split at h
    · cases h
    · split at h
      · split at h <;> cases h
      · cases h

theorem recordChange_not_unique {ch o n c e} : recordChange ch o ≠ .error (.uniqueViolation n c e) := by
  unfold recordChange
  split
  · simp
  · split
    · simp
    · split <;> simp

theorem runOps_conflict {s : Schema} {n c e} : ∀ {ops : List Operation} {t ch},
    runOps s t ch ops = .error (.uniqueViolation n c e) →
    ∃ pre op post t1 ch1 rs, ops = pre ++ op :: post ∧ runOps s t ch pre = .ok (t1, ch1, rs) ∧
      execOp s t1 op = .error (.uniqueViolation n c e) := by
  intro ops
  induction ops with
  | nil => intro t ch h; cases h
  | cons op ops ih =>
    intro t ch h
    simp only [runOps] at h
    split at h
    · rename_i hx
      cases h
      exact ⟨[], op, ops, t, ch, [], rfl, rfl, hx⟩
    · rename_i t1 r hx
      split at h
      · rename_i hrc; cases h; exact absurd hrc recordChange_not_unique
      · rename_i ch1 hrc
        split at h
        · rename_i hr
          cases h
          obtain ⟨pre, op', post, t2, ch2, rs, rfl, h1, h2⟩ := ih hr
          refine ⟨op :: pre, op', post, t2, ch2, r :: rs, rfl, ?_, h2⟩
          simp only [runOps, hx, hrc, h1]
        · cases h

/-- **C30**, second half, partial: a transaction rejected for uniqueness of a view contains an
operation which — on the documents as left by the operations before it — puts a document emitting a
key that another document already emits.  (Missing for the full claim: such a duplicate may be gone
again at the end of the transaction, see `C30_violated_transient_duplicate`.) -/
theorem C30_rejection_means_duplicate_partial (s : Schema) (hdv : DistinctViews s) (v : View)
    (hv : v ∈ s.views) (σ₀ σ : VSys) (hst : VStart v σ₀)
    (hnone : ∀ id, (σ₀.db.trees.invalidated v.name).get id = none) (he : VExec s σ₀ σ) (tid : Nat)
    (ops : List Operation) (a b : Header) (db' : Db)
    (h : applyToRoots s σ.db tid ops = (.error (.uniqueViolation v.name a b), db')) :
    v.policy = .unique ∧ ∃ pre op post t1 ch1 rs id d key x id' d' y, ops = pre ++ op :: post ∧
      runOps s σ.db.trees ⟨[], []⟩ pre = .ok (t1, ch1, rs) ∧
      op.collection = v.name.collection ∧ Puts op id d ∧ Emits v d key x ∧ id' ≠ id ∧
      (t1.docsOf v).get id' = some d' ∧ Emits v d' key y := by
  have hp : prepare s σ.db.trees ops = .error (.uniqueViolation v.name a b) := by
    unfold applyToRoots at h
    split at h
    · rename_i hp; cases h; exact hp
    · cases h
  have hr : runOps s σ.db.trees ⟨[], []⟩ ops = .error (.uniqueViolation v.name a b) := by
    unfold prepare at hp
    split at hp
    · split at hp
      · rename_i hr; cases hp; exact hr
      · cases hp
    · cases hp
  obtain ⟨pre, op, post, t1, ch1, rs, rfl, hpre, hop⟩ := runOps_conflict hr
  obtain ⟨hinv, _⟩ := vexec_inv hdv hv (vstart_inv hst) hst.known he
  have ho1 := runOps_own hdv hpre hinv.own
  have hbad : ∀ id od, (∀ d, od = some d → d.header.id = id) →
      updateEagerViews s op.collection id (t1.write op.collection id od) =
        .error (.uniqueViolation v.name a b) → v.policy = .unique ∧ op.collection = v.name.collection ∧
      ∃ d key x id' d' y, od = some d ∧ Emits v d key x ∧ id' ≠ id ∧
        (t1.docsOf v).get id' = some d' ∧ Emits v d' key y := by
    intro id od hid hu
    have how : AllOwn (t1.write op.collection id od) := by
      intro c i d hg
      rw [write_get] at hg
      split at hg
      · rename_i hc; rw [hc.2]; exact hid d hg
      · exact ho1 c i d hg
    obtain ⟨w, hw, hpol, hn, d, key, x, hd, hem, m, hm, hne⟩ :=
      updateViewList_conflict hu (eager_nodup hdv _ _) how
    simp only [Schema.viewsIn, List.mem_filter, decide_eq_true_eq] at hw
    have hwv := distinct_inj hdv hw.1.1 hv hn
    subst hwv
    refine ⟨hpol, hw.1.2.symm, ?_⟩
    have hd' : od = some d := by
      simp only [Trees.docsOf] at hd
      rw [write_get, if_pos ⟨hw.1.2, rfl⟩] at hd
      exact hd
    -- the view shows every document after the prefix
    have hcur : ∀ i, Shows w (t1.entries w.name) i ((t1.docsOf w).get i) := by
      obtain ⟨hok, _, htr⟩ := runOps_eager hdv hv (by rw [hpol]; rfl) hpre hinv.own hinv.view.1
      intro i
      rcases htr i with ⟨f, dd⟩ | hs
      · have hi : (σ.db.trees.invalidated w.name).get i = none :=
          eager_unmarked hdv hv (by rw [hpol]; rfl) hst hnone he i
        have := hinv.view.2 i hi
        rw [dd]
        exact ⟨this.1, fun key => by rw [f]; exact this.2 key⟩
      · exact hs
    have hok := (runOps_eager hdv hv (by rw [hpol]; rfl) hpre hinv.own hinv.view.1).1
    obtain ⟨id', d', ms, hd2, hms, hsrc, hl⟩ := (shows_all_mem hok.1 hcur key m).mp hm
    refine ⟨d, key, x, id', d', m.value, hd', hem, ?_, hd2, ms, hms, lastValue_mem hl⟩
    have := ho1 _ _ _ hd2
    rw [← this, ← hsrc]
    exact hne
  rcases execOp_conflict hop with ⟨id, d, hputs, hu⟩ | ⟨id, hu⟩
  · obtain ⟨h1, h2, d0, key, x, id', d', y, hd0, r⟩ := hbad id (some d) (by rintro _ ⟨⟩; exact hputs.1) hu
    cases hd0
    exact ⟨h1, pre, op, post, t1, ch1, rs, id, d, key, x, id', d', y, rfl, hpre, h2, hputs, r⟩
  · obtain ⟨_, _, d0, _, _, _, _, _, hd0, _⟩ := hbad id none (by simp) hu
    cases hd0

/-! ### What is not true -/

section Example

/-- A unique view: each document emits its contents as key. -/
def exUnique : View := ⟨exVName, .unique, 0, fun d => some [(d.contents, [1])], fun _ _ => .unimplemented⟩

/-- Two documents with different keys. -/
def exTwo : Db := (applyToRoots (exWith exUnique) .empty 1
  [⟨exC, .insert (some [1]) [10]⟩, ⟨exC, .insert (some [2]) [20]⟩]).2

/-- Inserting a third document with a used key is rejected, with a fresh key accepted. -/
example : (applyToRoots (exWith exUnique) exTwo 2 [⟨exC, .insert (some [3]) [20]⟩]).1 =
    .error (.uniqueViolation exVName ⟨[3], ⟨0, [20]⟩⟩ ⟨[2], ⟨0, [20]⟩⟩) ∧
    (applyToRoots (exWith exUnique) exTwo 2 [⟨exC, .insert (some [3]) [30]⟩]).1 =
    .ok [.updated exC ⟨[3], ⟨0, [30]⟩⟩] := ⟨rfl, rfl⟩

/-- **C30 is violated**: exchanging the keys of two documents in one transaction is rejected for
uniqueness, although no two documents would share a key afterwards (the check runs after every
operation). -/
theorem C30_violated_transient_duplicate :
    ∃ (s : Schema) (v : View) (σ₀ σ : VSys) (ops : List Operation) (a' : AbsStore)
      (rs : List OpResult) (x y : Header),
      DistinctViews s ∧ v ∈ s.views ∧ v.policy = .unique ∧ VStart v σ₀ ∧
      (∀ id, (σ₀.db.trees.invalidated v.name).get id = none) ∧ VExec s σ₀ σ ∧
      SpecRun s σ.db.trees.abs ops (.ok (a', rs)) ∧
      (∀ id₁ a₁ id₂ a₂ key x y, a' v.name.collection id₁ = some a₁ →
        a' v.name.collection id₂ = some a₂ → Emits v ⟨headerOf s.digest id₁ a₁, a₁.2⟩ key x →
        Emits v ⟨headerOf s.digest id₂ a₂, a₂.2⟩ key y → id₁ = id₂) ∧
      applyToRoots s σ.db 9 ops = (.error (.uniqueViolation v.name x y), σ.db) := by
  let ops₀ : List Operation := [⟨exC, .insert (some [1]) [10]⟩, ⟨exC, .insert (some [2]) [20]⟩]
  let ops : List Operation := [⟨exC, .overwrite [1] [20]⟩, ⟨exC, .overwrite [2] [10]⟩]
  refine ⟨exWith exUnique, exUnique, exStart, exStart.commit 1 _ _, ops, _, _, ⟨[1], ⟨1, [20]⟩⟩,
    ⟨[2], ⟨0, [20]⟩⟩, exDistinct _, by simp [exWith], rfl, exStart_start _, fun _ => rfl,
    .step (.refl _) (.transaction (ops := ops₀) rfl (Nat.zero_le _)),
    .next_ok (lastKey_largest _ _) rfl (.next_ok (last := some [2]) ?_ rfl (.nil _)), ?_, rfl⟩
  · refine ⟨by decide, ?_⟩
    intro id hid
    by_cases h1 : id = [1]
    · subst h1; exact .inr (by decide)
    · by_cases h2 : id = [2]
      · exact .inl h2
      · exfalso
        apply hid
        simp only [AbsStore.put, h1, and_false, if_false]
        simp only [Trees.abs, Option.map_eq_none_iff]
        show (OMap.set (OMap.set (OMap.empty : OMap Document) [1] _) [2] _).get id = none
        rw [OMap.get_set_ne _ (fun e => h2 e.symm), OMap.get_set_ne _ (fun e => h1 e.symm)]
        rfl
  · intro id₁ a₁ id₂ a₂ key x y h1 h2 e1 e2
    have hval : ∀ id a, (AbsStore.put (AbsStore.put (Trees.abs (exStart.commit 1 none
        (match prepare (exWith exUnique) exStart.db.trees ops₀ with
          | .ok p => p.1 | .error _ => .empty)).db.trees) exC [1] (some (1, [20]))) exC [2]
            (some (1, [10]))) exC id = some a → (id = [1] ∧ a.2 = [20]) ∨ (id = [2] ∧ a.2 = [10]) := by
      intro id a h
      by_cases i2 : id = [2]
      · simp only [AbsStore.put, i2, and_self, if_true, Option.some.injEq] at h
        exact .inr ⟨i2, by rw [← h]⟩
      · by_cases i1 : id = [1]
        · simp only [AbsStore.put, i2, and_false, if_false, i1, and_self, if_true,
            Option.some.injEq] at h
          refine .inl ⟨i1, ?_⟩
          have h : (if exC = exC ∧ ([1] : Bytes) = [2] then some ((1, [10]) : AbsDoc) else some (1, [20])) = some a := h
          simp at h
          rw [← h]
        · exfalso
          simp only [AbsStore.put, i1, i2, and_false, if_false, Trees.abs, Option.map_eq_some_iff] at h
          obtain ⟨d, hd, _⟩ := h
          have hd : (OMap.set (OMap.set (OMap.empty : OMap Document) [1] (Document.new (fun x => x) [1] [10])) [2]
            (Document.new (fun x => x) [2] [20])).get id = some d := hd
          rw [OMap.get_set_ne _ (fun e => i2 e.symm), OMap.get_set_ne _ (fun e => i1 e.symm)] at hd
          cases hd
    have k1 : key = a₁.2 := by
      obtain ⟨ms, hm, hin⟩ := e1
      cases hm
      simp at hin; exact hin.1
    have k2 : key = a₂.2 := by
      obtain ⟨ms, hm, hin⟩ := e2
      cases hm
      simp at hin; exact hin.1
    rcases hval id₁ a₁ h1 with ⟨i1, v1⟩ | ⟨i1, v1⟩ <;> rcases hval id₂ a₂ h2 with ⟨i2, v2⟩ | ⟨i2, v2⟩
    · rw [i1, i2]
    · rw [k1, v1, v2] at k2; exact absurd k2 (by decide)
    · rw [k1, v1, v2] at k2; exact absurd k2 (by decide)
    · rw [i1, i2]

/-- The state in which a unique view was added to existing data and its integrity scan has finished,
but not yet the mapping job: one document, marked for mapping. -/
def exUnmapped : VSys :=
  let t : Trees := { Trees.empty with
    docs := upd (fun _ => .empty) exC (OMap.empty.set [1] (Document.new id [1] [10]))
    invalidated := upd (fun _ => .empty) exVName (OMap.empty.set [1] ()) }
  ⟨⟨t, [(1, none)]⟩, [], fun _ => [], [(2, t)]⟩

/-- **C30 is violated** while a unique view added to existing documents has not been mapped yet:
once the integrity scan has completed, transactions no longer wait for the mapping job
(database.rs:1150-1189: only the transaction that started the scan takes the handle; tasks.rs:135-140),
and a duplicate is accepted. -/
theorem C30_violated_before_first_mapping :
    ∃ (s : Schema) (v : View) (σ₀ σ : VSys), DistinctViews s ∧ v ∈ s.views ∧ v.policy = .unique ∧
      VStart v σ₀ ∧ VExec s σ₀ σ ∧ Clash v (σ.db.trees.docsOf v) := by
  refine ⟨exWith exUnique, exUnique, exUnmapped, _, exDistinct _, by simp [exWith], rfl, ?_,
    .step (.refl _) (.transaction (tid := 5) (ops := [⟨exC, .insert (some [2]) [10]⟩]) rfl (by decide)),
    [1], ⟨⟨[1], ⟨0, [10]⟩⟩, [10]⟩, [2], ⟨⟨[2], ⟨0, [10]⟩⟩, [10]⟩, [10], [1], [1], by decide, rfl, rfl,
    ⟨_, rfl, by simp⟩, ⟨_, rfl, by simp⟩⟩
  refine ⟨rfl, rfl, rfl, ?_, rfl, rfl, ?_, ?_⟩
  · intro c id d h
    by_cases hc : c = exC
    · subst hc
      have h : (OMap.set (OMap.empty : OMap Document) [1] (Document.new (fun x => x) [1] [10])).get id = some d := h
      rw [OMap.get_set] at h
      split at h
      · rename_i e; cases h; exact e
      · cases h
    · have h : (upd (fun _ => OMap.empty) exC (OMap.empty.set [1] (Document.new (fun x => x) [1] [10])) c).get id = some d := h
      rw [upd_ne _ _ hc] at h
      cases h
  · intro id h
    have h : ((OMap.set (OMap.empty : OMap Document) [1] (Document.new (fun x => x) [1] [10])).get id).isSome := h
    show ((OMap.set (OMap.empty : OMap Unit) [1] ()).get id).isSome
    rw [OMap.get_set] at h ⊢
    split at h
    · rename_i e; simp [e]
    · cases h
  · intro h; cases h

end Example

end Bonsai.Store
