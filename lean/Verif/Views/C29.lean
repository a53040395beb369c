import Verif.Views.System
import Verif.Store.C26

/-!
# C29 (views are the map of the documents) and C31 (query freshness)
-/
set_option linter.unusedSimpArgs false

namespace Bonsai.Store
open Bonsai Bonsai.Names

/-- The mappings stored at a key: what a query of that key returns. -/
def VSys.at (σ : VSys) (v : View) (key : Bytes) : List EntryMapping :=
  mappingsOf (σ.db.trees.entries v.name |>.get key)

theorem findId_of_mem {ms : List EntryMapping} (h : NodupIds ms) {m : EntryMapping} (hm : m ∈ ms) :
    findId ms m.source.id = some m := by
  induction ms with
  | nil => simp at hm
  | cons x ms ih =>
    simp only [NodupIds, List.map_cons, List.nodup_cons] at h
    simp only [findId, List.find?_cons] at ih ⊢
    rcases List.mem_cons.mp hm with rfl | hm
    · simp
    · have : x.source.id ≠ m.source.id := fun e => h.1 (List.mem_map.mpr ⟨m, hm, e.symm⟩)
      simp [this]
      simpa using ih h.2 hm

theorem findId_mem {ms : List EntryMapping} {id : Bytes} {m : EntryMapping} (h : findId ms id = some m) :
    m ∈ ms ∧ m.source.id = id := by
  unfold findId at h
  exact ⟨List.mem_of_find?_eq_some h, by simpa using List.find?_some h⟩

theorem ViewWF.nodup {es : OMap ViewEntry} (h : ViewWF es) (key : Bytes) :
    NodupIds (mappingsOf (es.get key)) := by
  cases he : es.get key with
  | none => simp [mappingsOf, NodupIds]
  | some e => exact (h key e he).2.2

theorem expect_some {v : View} {od : Option Document} {key : Bytes} {m : EntryMapping} :
    expect v od key = some m ↔ ∃ d ms, od = some d ∧ v.map d = some ms ∧ m.source = d.header ∧
      lastValue ms key = some m.value := by
  unfold expect
  simp only [Option.bind_eq_some_iff, Option.map_eq_some_iff]
  constructor
  · rintro ⟨d, hd, ms, hms, x, hx, rfl⟩
    exact ⟨d, ms, hd, hms, rfl, hx⟩
  · rintro ⟨d, ms, hd, hms, hs, hl⟩
    exact ⟨d, hd, ms, hms, m.value, hl, by cases m; simp at hs; simp [hs]⟩

/-- A well-formed view that shows every document: its mappings. -/
theorem shows_all_mem {v : View} {es : OMap ViewEntry} {docs : OMap Document} (hwf : ViewWF es)
    (hs : ∀ id, Shows v es id (docs.get id)) (key : Bytes) (m : EntryMapping) :
    m ∈ mappingsOf (es.get key) ↔ ∃ id d ms, docs.get id = some d ∧ v.map d = some ms ∧
      m.source = d.header ∧ lastValue ms key = some m.value := by
  constructor
  · intro hm
    have h1 := findId_of_mem (hwf.nodup key) hm
    rw [← found_eq, (hs m.source.id).2 key, expect_some] at h1
    obtain ⟨d, ms, hd, h⟩ := h1
    exact ⟨_, d, ms, hd, h⟩
  · rintro ⟨id, d, ms, hd, hms, hsrc, hl⟩
    have : expect v (docs.get id) key = some m := expect_some.mpr ⟨d, ms, hd, hms, hsrc, hl⟩
    rw [← (hs id).2 key, found_eq] at this
    exact (findId_mem this).1

theorem lastValue_mem {ms : List (Bytes × Bytes)} {key x : Bytes} (h : lastValue ms key = some x) :
    (key, x) ∈ ms := by
  induction ms with
  | nil => simp [lastValue] at h
  | cons kv ms ih =>
    simp only [lastValue] at h
    cases hl : lastValue ms key with
    | some y => rw [hl] at h; simp at h; subst h; exact List.mem_cons_of_mem _ (ih hl)
    | none =>
      rw [hl] at h
      simp only [Option.none_or] at h
      split at h
      · rename_i hk
        cases h; subst hk; simp
      · cases h

theorem lastValue_of_nodup {ms : List (Bytes × Bytes)} (hnd : (ms.map (·.1)).Nodup) {key x : Bytes}
    (h : (key, x) ∈ ms) : lastValue ms key = some x := by
  have hs : (lastValue ms key).isSome := lastValue_isSome.mpr (List.mem_map.mpr ⟨_, h, rfl⟩)
  obtain ⟨y, hy⟩ := Option.isSome_iff_exists.mp hs
  have hm := lastValue_mem hy
  have : x = y := by
    clear hs hy
    induction ms with
    | nil => simp at h
    | cons kv ms ih =>
      simp only [List.map_cons, List.nodup_cons] at hnd
      simp only [List.mem_cons] at h hm
      rcases h with rfl | h <;> rcases hm with hm | hm
      · simpa using hm.symm
      · exact absurd (List.mem_map.mpr ⟨_, hm, rfl⟩) hnd.1
      · subst hm; exact absurd (List.mem_map.mpr ⟨_, h, rfl⟩) hnd.1
      · exact ih hnd.2 h hm
  rw [hy, this]

/-! ## C29 -/

/-- **C29** (exact form): in every state reached by any interleaving of transactions, mapping jobs
(with any batching and delivery order), failures and restarts, when no document is marked for mapping
the view holds at each key exactly one mapping per document that emits the key, with the document's
current header and the last value the document emits for the key; there is an entry iff some document
emits the key; and the map of every document succeeded. -/
theorem C29_view_is_map_of_documents (s : Schema) (hdv : DistinctViews s) (v : View)
    (hv : v ∈ s.views) (σ₀ σ : VSys) (hst : VStart v σ₀) (he : VExec s σ₀ σ)
    (hmapped : ∀ id, (σ.db.trees.invalidated v.name).get id = none) :
    (∀ id d, (σ.db.trees.docsOf v).get id = some d → (v.map d).isSome) ∧
    (∀ key m, m ∈ σ.at v key ↔ ∃ id d ms, (σ.db.trees.docsOf v).get id = some d ∧
      v.map d = some ms ∧ m.source = d.header ∧ lastValue ms key = some m.value) ∧
    (∀ key, ((σ.at v key).map fun m => m.source.id).Nodup) ∧
    (∀ key, (σ.db.trees.entries v.name).get key = none ↔
      ∀ id d value, (σ.db.trees.docsOf v).get id = some d → ¬ Emits v d key value) := by
  obtain ⟨hinv, _⟩ := vexec_inv hdv hv (vstart_inv hst) hst.known he
  have hall : ∀ id, Shows v (σ.db.trees.entries v.name) id ((σ.db.trees.docsOf v).get id) :=
    fun id => hinv.view.2 id (hmapped id)
  have hmem := shows_all_mem hinv.view.1.1 hall
  refine ⟨fun id d hd => (hall id).1 d hd, hmem, fun key => hinv.view.1.1.nodup key, ?_⟩
  intro key
  constructor
  · intro hn id d value hd ⟨ms, hms, hin⟩
    have hl : (lastValue ms key).isSome := lastValue_isSome.mpr (List.mem_map.mpr ⟨_, hin, rfl⟩)
    obtain ⟨x, hx⟩ := Option.isSome_iff_exists.mp hl
    have := (hmem key ⟨d.header, x⟩).mpr ⟨id, d, ms, hd, hms, rfl, hx⟩
    rw [hn] at this
    simp [mappingsOf] at this
  · intro hno
    cases hg : (σ.db.trees.entries v.name).get key with
    | none => rfl
    | some e =>
      exfalso
      obtain ⟨m, hm⟩ := List.exists_mem_of_ne_nil _ (hinv.view.1.1 key e hg).2.1
      have : m ∈ mappingsOf ((σ.db.trees.entries v.name).get key) := by
        rw [hg]; exact hm
      obtain ⟨id, d, ms, hd, hms, _, hl⟩ := (hmem key m).mp this
      exact hno id d m.value hd ⟨ms, hms, lastValue_mem hl⟩

/-- **C29** for map functions that emit each key at most once per document: the view holds exactly
the emitted mappings. -/
theorem C29_exact_when_emitting_once_partial (s : Schema) (hdv : DistinctViews s) (v : View)
    (hv : v ∈ s.views) (honce : EmitsOnce v) (σ₀ σ : VSys) (hst : VStart v σ₀) (he : VExec s σ₀ σ)
    (hmapped : ∀ id, (σ.db.trees.invalidated v.name).get id = none) (key : Bytes)
    (m : EntryMapping) :
    m ∈ σ.at v key ↔ ∃ id d, (σ.db.trees.docsOf v).get id = some d ∧ m.source = d.header ∧
      Emits v d key m.value := by
  rw [(C29_view_is_map_of_documents s hdv v hv σ₀ σ hst he hmapped).2.1 key m]
  constructor
  · rintro ⟨id, d, ms, hd, hms, hs, hl⟩
    exact ⟨id, d, hd, hs, ms, hms, lastValue_mem hl⟩
  · rintro ⟨id, d, hd, hs, ms, hms, hin⟩
    exact ⟨id, d, ms, hd, hms, hs, lastValue_of_nodup (honce d ms hms) hin⟩

theorem eager_unmarked {s : Schema} (hdv : DistinctViews s) {v : View}
    (hv : v ∈ s.views) (hpol : v.policy.isEager = true) {σ₀ σ : VSys} (hst : VStart v σ₀)
    (hnone : ∀ id, (σ₀.db.trees.invalidated v.name).get id = none) (he : VExec s σ₀ σ) :
    ∀ id, (σ.db.trees.invalidated v.name).get id = none := by
  have hk := hst.known (s := s)
  have hinv := vstart_inv hst
  induction he with
  | refl => exact hnone
  | @step τ τ' hex hs ih =>
    intro id
    obtain ⟨hinv', hk'⟩ := vexec_inv hdv hv hinv hk hex
    cases hs with
    | transaction hp _ =>
      unfold prepare at hp
      split at hp
      · split at hp
        · cases hp
        · rename_i hr
          cases hp
          obtain ⟨_, hi, _⟩ := runOps_eager hdv hv hpol hr hinv'.own hinv'.view.1
          rw [← not_isSome_none]
          simp only [VSys.commit, invalidateChanged_get, hi, not_or]
          refine ⟨by rw [not_isSome_none]; exact ih id, ?_⟩
          rintro ⟨w, hw, hn, hl, _⟩
          rw [distinct_inj hdv hw hv hn, hpol] at hl
          cases hl
      · cases hp
    | @chunk pre post w m p tid bs es dm hj _ _ _ _ =>
      show ((chunkTrees τ.db.trees w (chunkIds p) es dm).invalidated v.name).get id = none
      by_cases hwv : v.name = w.name
      · simp only [chunkTrees, hwv, upd_self, removeAll_get]
        rw [← hwv, ih id]; simp
      · simp only [chunkTrees, upd_ne _ _ hwv]
        exact ih id
    | other => exact ih id
    | begin => exact ih id
    | scan => exact ih id
    | done => exact ih id
    | fail => exact ih id
    | restart => exact ih id

/-- Eager and unique views never mark documents: created on an empty collection they are current
after every transaction, without any mapping job. -/
theorem C29_eager_view_always_current (s : Schema) (hdv : DistinctViews s) (v : View)
    (hv : v ∈ s.views) (hpol : v.policy.isEager = true) (σ₀ σ : VSys) (hst : VStart v σ₀)
    (hnone : ∀ id, (σ₀.db.trees.invalidated v.name).get id = none) (he : VExec s σ₀ σ) (key : Bytes)
    (m : EntryMapping) :
    m ∈ σ.at v key ↔ ∃ id d ms, (σ.db.trees.docsOf v).get id = some d ∧ v.map d = some ms ∧
      m.source = d.header ∧ lastValue ms key = some m.value := by
  exact (C29_view_is_map_of_documents s hdv v hv σ₀ σ hst he
    (eager_unmarked hdv hv hpol hst hnone he)).2.1 key m

/-! ## C31 -/

/-- A query reads the view as of some committed state at or after the start of the query. -/
theorem query_fresh {s : Schema} (hdv : DistinctViews s) {v : View}
    (hv : v ∈ s.views) {σ₀ σ₁ σ' σ₂ : VSys} (hst : VStart v σ₀) (h1 : VExec s σ₀ σ₁)
    (h' : VExec s σ₁ σ') (h2 : VExec s σ' σ₂)
    (hready : σ₁.db.lastTid = 0 ∨ ∃ m ∈ σ'.results v.name, σ₁.db.lastTid ≤ m) (id : Bytes) :
    FreshSince v σ₂ σ₁.db.lastTid id := by
  obtain ⟨i1, k1⟩ := vexec_inv hdv hv (vstart_inv hst) hst.known h1
  obtain ⟨i', k'⟩ := vexec_inv hdv hv i1 k1 h'
  -- freshness is kept by every later step
  have keep : ∀ (n : Nat) (ρ ρ' : VSys), VSysInv v ρ → JobsKnown s ρ → VExec s ρ ρ' →
      FreshSince v ρ n id → FreshSince v ρ' n id := by
    intro n ρ ρ' hi hk hex hf
    induction hex with
    | refl => exact hf
    | @step μ μ' hex hs ih =>
      obtain ⟨hi', hk'⟩ := vexec_inv hdv hv hi hk hex
      have hkn : n ≤ μ.db.lastTid := by
        obtain ⟨p, hp, hnp, _⟩ := ih
        exact Nat.le_trans hnp (past_bound hi' hp)
      cases hs with
      | transaction hp htid =>
        obtain ⟨_, _, h3⟩ := prepare_view hdv hv hp hi'.own hi'.view
        exact commit_fresh (by omega) (h3 id) ih
      | other htid => exact commit_fresh (by omega) (.inl fun _ => rfl) ih
      | @chunk pre post w m p tid bs es dm hj hp hb htid hm =>
        have hself : (⟨w, m, some p⟩ : MapJob) ∈ μ.jobs := by rw [hj]; simp
        have hw := hk' _ hself
        have htr : (∀ key, found ((chunkTrees μ.db.trees w (chunkIds p) es dm).entries v.name) key id =
            found (μ.db.trees.entries v.name) key id) ∨
            Shows v ((chunkTrees μ.db.trees w (chunkIds p) es dm).entries v.name) id
              (((chunkTrees μ.db.trees w (chunkIds p) es dm).docsOf v).get id) := by
          by_cases hwv : w = v
          · subst hwv
            obtain ⟨hpn, _⟩ := hi'.job _ hself rfl p rfl
            have hnd : (chunkIds p).Nodup := List.Nodup.sublist (List.drop_sublist _ _) hpn
            exact (chunk_view (v := w) (w := w) (fun _ => rfl) hi'.own hi'.view hnd hb hm).2.1 id
          · have hne : v.name ≠ w.name := fun e => hwv (distinct_inj hdv hw hv e.symm)
            refine .inl fun key => ?_
            simp only [chunkTrees, upd_ne _ _ hne]
        have := commit_fresh (d := none) (tid := tid) (by omega) htr ih
        exact this
      | begin => exact ih
      | scan => exact ih
      | done => exact ih
      | fail => exact ih
      | restart => exact ih
  rcases hready with h0 | ⟨m, hm, hle⟩
  · obtain ⟨i0, k0⟩ := (⟨vstart_inv hst, hst.known⟩ : VSysInv v σ₀ ∧ JobsKnown s σ₀)
    have hz : σ₀.db.lastTid = 0 := by
      obtain ⟨p, hp⟩ : ∃ p, p ∈ σ₁.past ∧ p.1 = σ₀.db.lastTid := by
        have hmono : ∀ ρ, VExec s σ₀ ρ → (σ₀.db.lastTid, σ₀.db.trees) ∈ ρ.past := by
          intro ρ hex
          induction hex with
          | refl => rw [hst.past]; simp
          | step _ hs ih =>
            cases hs <;> first | exact ih | exact List.mem_append_left _ ih
        exact ⟨_, hmono _ h1, rfl⟩
      have := past_bound i1 hp.1
      omega
    rw [h0]
    refine keep 0 σ₀ σ₂ i0 k0 ((h1.trans h').trans h2) ?_
    refine fresh_now i0 (Nat.zero_le _) ?_
    rw [hst.noDocs hz id, hst.entries]
    exact shows_empty_none v id
  · obtain ⟨p, hp, hk, hs⟩ := keep m σ' σ₂ i' k' h2 (i'.result m hm id)
    exact ⟨p, hp, Nat.le_trans hle hk, hs⟩

/-- The only committed state that is not older than the current one is the current one. -/
theorem past_now {v : View} {σ₁ : VSys} (i1 : VSysInv v σ₁) {p : Nat × Trees} (hin : p ∈ σ₁.past)
    (hk : σ₁.db.lastTid ≤ p.1) : p = (σ₁.db.lastTid, σ₁.db.trees) := by
  have hb := past_bound i1 hin
  obtain ⟨l, hl⟩ := List.getLast?_eq_some_iff.mp i1.cur
  have hsrt := i1.sorted
  rw [hl] at hsrt hin
  rw [List.mem_append, List.mem_singleton] at hin
  rcases hin with hin | rfl
  · have := (List.pairwise_append.mp hsrt).2.2 p hin (σ₁.db.lastTid, σ₁.db.trees) (by simp)
    simp only at this
    omega
  · rfl

/-- **C31**: a query starts in state `σ₁` (where it reads the last transaction id, tasks.rs:67), and
reads the view in `σ₂`.  In between, in `σ'`, it learned of a mapping job that reported a transaction
id at least as large (either the recorded status, tasks.rs:68-82, or a job result, tasks.rs:101-104),
or there was no transaction at all.  Then for every document the view it reads shows the document as
it was in some committed state at or after the start of the query — whatever writers, mapping jobs,
failures and restarts did meanwhile. -/
theorem C31_query_sees_earlier_commits (s : Schema) (hdv : DistinctViews s) (v : View)
    (hv : v ∈ s.views) (σ₀ σ₁ σ' σ₂ : VSys) (hst : VStart v σ₀) (h1 : VExec s σ₀ σ₁)
    (h' : VExec s σ₁ σ') (h2 : VExec s σ' σ₂)
    (hready : σ₁.db.lastTid = 0 ∨ ∃ m ∈ σ'.results v.name, σ₁.db.lastTid ≤ m) (id : Bytes) :
    ∃ τ, VExec s σ₁ τ ∧ VExec s τ σ₂ ∧
      ∀ key, found (σ₂.db.trees.entries v.name) key id = expect v ((τ.db.trees.docsOf v).get id) key := by
  obtain ⟨i1, -⟩ := vexec_inv hdv hv (vstart_inv hst) hst.known h1
  obtain ⟨p, hp, hk, hs⟩ := query_fresh hdv hv hst h1 h' h2 hready id
  rcases past_origin (h'.trans h2) p hp with hin | ⟨τ, a, b, c⟩
  · have hb := past_bound i1 hin
    have heq := past_now i1 hin hk
    refine ⟨σ₁, .refl _, h'.trans h2, ?_⟩
    intro key
    rw [hs.2 key, heq]
  · refine ⟨τ, a, b, ?_⟩
    intro key
    rw [hs.2 key, c]

/-! ## Concrete executions -/

section Example

def exVName : VName := ⟨⟨"a", "c"⟩, "v"⟩

/-- A lazy view of the example collection: each document emits its contents as key. -/
def exLazy : View := ⟨exVName, .lazy, 0, fun d => some [(d.contents, [1])], fun l _ => .ok [l.length.toUInt8]⟩

/-- An eager view whose map emits one key twice. -/
def exTwice : View := ⟨exVName, .eager, 0, fun d => some [(d.contents, [1]), (d.contents, [2])],
  fun _ _ => .unimplemented⟩

def exWith (v : View) : Schema := { exSchema with views := [v] }

def exStart : VSys := ⟨.empty, [], fun _ => [], [(0, .empty)]⟩

theorem exStart_start (v : View) : VStart v exStart where
  jobs := rfl
  results := rfl
  past := rfl
  own := by intro c id d h; cases h
  entries := rfl
  docMap := rfl
  invalidated := by intro id h; cases h
  noDocs := fun _ _ => rfl

theorem exDistinct (v : View) : DistinctViews (exWith v) := by simp [DistinctViews, exWith]

/-- **C29 is violated** when a map function emits the same key twice for a document: of the two
emitted mappings only the last is in the view, although nothing is left to map. -/
theorem C29_violated_duplicate_key :
    ∃ (s : Schema) (v : View) (σ₀ σ : VSys), DistinctViews s ∧ v ∈ s.views ∧ VStart v σ₀ ∧
      VExec s σ₀ σ ∧ (∀ id, (σ.db.trees.invalidated v.name).get id = none) ∧
      ∃ id d key value, (σ.db.trees.docsOf v).get id = some d ∧ Emits v d key value ∧
        (⟨d.header, value⟩ : EntryMapping) ∉ σ.at v key := by
  refine ⟨exWith exTwice, exTwice, exStart, _, exDistinct _, by simp [exWith], exStart_start _,
    .step (.refl _) (.transaction (tid := 1) (ops := [⟨exC, .insert (some [7]) [5]⟩]) rfl
      (Nat.zero_le _)), fun _ => rfl, [7], ⟨⟨[7], ⟨0, [5]⟩⟩, [5]⟩, [5], [1], rfl,
    ⟨_, rfl, by simp⟩, ?_⟩
  show _ ∉ [(⟨⟨[7], ⟨0, [5]⟩⟩, [2]⟩ : EntryMapping)]
  decide

theorem exChunk : chunkIds [[7]] = [[7]] ∧ chunkRest [[7]] = [] := by
  simp [chunkIds, chunkRest, chunkSize]

/-- A full run on a lazy view: insert, update, mapping job; a query started after the insert is ready,
nothing is left to map, and the view holds the new key only. -/
example : ∃ σ₁ σ : VSys, VExec (exWith exLazy) exStart σ₁ ∧ VExec (exWith exLazy) σ₁ σ ∧
    σ₁.db.lastTid = 3 ∧ (∃ m ∈ σ.results exLazy.name, σ₁.db.lastTid ≤ m) ∧
    (∀ id, (σ.db.trees.invalidated exLazy.name).get id = none) ∧
    σ.at exLazy [5] = [] ∧ σ.at exLazy [6] = [⟨⟨[7], ⟨1, [6]⟩⟩, [1]⟩] := by
  refine ⟨_, _, .step (.step (.refl _) (.transaction (tid := 1)
      (ops := [⟨exC, .insert (some [7]) [5]⟩]) rfl (Nat.zero_le _)))
      (.transaction (tid := 2) (ops := [⟨exC, .overwrite [7] [6]⟩]) rfl (by decide)),
    .step (.step (.step (.step (.refl _) (.begin (v := exLazy) (by simp [exWith])))
      (.scan (pre := []) (post := []) rfl))
      (.chunk (pre := []) (post := []) (p := [[7]]) (tid := 5) (bs := [[[7]]]) rfl (by simp)
        (by rw [exChunk.1]; exact .refl _) (by decide) rfl))
      (.done (pre := []) (post := []) (by rw [exChunk.2])), rfl, ⟨3, by show 3 ∈ [3]; simp, by decide⟩, ?_, rfl, rfl⟩
  intro id
  show (removeAll _ _).get id = none
  rw [removeAll_get]
  show (if id ∈ _ then none else OMap.get (OMap.set (OMap.set .empty [7] ()) [7] ()) id) = none
  rw [exChunk.1]
  simp only [OMap.get_set, List.mem_singleton]
  by_cases h : id = [7]
  · simp [h]
  · have : [7] ≠ id := fun e => h e.symm
    simp [h, this]

end Example

end Bonsai.Store
