import Verif.Views.C34

/-!
# C35: `delete_docs`
-/
set_option linter.unusedSimpArgs false

namespace Bonsai.Store
open Bonsai Bonsai.Names Bonsai.Query

/-- The sources of the mappings a query selects, in order. -/
def selectedSources (es : OMap ViewEntry) (key : Option (QueryKey Bytes)) : List Header :=
  (queryByName es key .ascending none).map (·.source)

theorem deleteOps_eq (c : QName) (es : OMap ViewEntry) (key : Option (QueryKey Bytes)) :
    deleteOps c es key = (selectedSources es key).map fun h => ⟨c, .delete h⟩ := by
  simp only [deleteOps, selectedSources, queryByName, List.map_flatMap, List.map_map]
  rfl

theorem runOps_deletes {s : Schema} {c : QName} : ∀ {hs : List Header} {t ch t' ch' rs},
    runOps s t ch (hs.map fun h => ⟨c, .delete h⟩) = .ok (t', ch', rs) →
    (hs.map (·.id)).Nodup ∧ rs.length = hs.length ∧
    (∀ h ∈ hs, ∃ d, (t.docs c).get h.id = some d ∧ d.header = h) ∧
    (∀ c' id, (t'.docs c').get id = if c' = c ∧ id ∈ hs.map (·.id) then none else (t.docs c').get id) := by
  intro hs
  induction hs with
  | nil => intro t ch t' ch' rs h; cases h; simp
  | cons h hs ih =>
    intro t ch t' ch' rs hr
    rw [List.map_cons, runOps] at hr
    cases hx : execOp s t ⟨c, .delete h⟩ with
    | error e => rw [hx] at hr; cases hr
    | ok p =>
      obtain ⟨t1, r⟩ := p
      rw [hx] at hr
      simp only at hr
      split at hr
      · cases hr
      · split at hr
        · cases hr
        · rename_i hrest
          cases hr
          simp only [execOp, execDelete] at hx
          split at hx
          · cases hx
          · rename_i doc hdoc
            split at hx
            · rename_i heq
              split at hx
              · cases hx
              · rename_i t2 hu
                cases hx
                obtain ⟨i1, i2, i3, i4⟩ := ih hrest
                have hd : ∀ c' id, (t1.docs c').get id =
                    if c' = c ∧ id = h.id then none else (t.docs c').get id := by
                  intro c' id
                  rw [(updateEagerViews_docs hu).1]
                  exact write_get t c c' h.id id none
                refine ⟨?_, by simp [i2], ?_, ?_⟩
                · rw [List.map_cons, List.nodup_cons]
                  refine ⟨?_, i1⟩
                  intro hin
                  obtain ⟨h', hh', he⟩ := List.mem_map.mp hin
                  obtain ⟨d, hg, _⟩ := i3 h' hh'
                  rw [hd, if_pos ⟨rfl, he⟩] at hg
                  cases hg
                · intro h' hh'
                  rcases List.mem_cons.mp hh' with rfl | hh'
                  · exact ⟨doc, hdoc, heq⟩
                  · obtain ⟨d, hg, he⟩ := i3 h' hh'
                    rw [hd] at hg
                    split at hg
                    · cases hg
                    · exact ⟨d, hg, he⟩
                · intro c' id
                  rw [i4, hd]
                  by_cases hc : c' = c
                  · by_cases hi : id ∈ hs.map (·.id)
                    · simp [hc, hi]
                    · by_cases h1 : id = h.id
                      · simp [hc, h1]
                      · simp only [hc, hi, h1, List.map_cons, List.mem_cons, and_false, if_false,
                          or_self]
                  · simp [hc]
            · cases hx

/-- **C35**, safety: whatever the view held when it was read (`es`) and whatever happened to the
database (`db`) before the delete transaction ran: if `delete_docs` succeeds with `n`, then exactly
the documents with a selected mapping are gone, every other document of every collection is
unchanged, each deleted document was still at the revision the view showed, and `n` is the number of
documents deleted. -/
theorem C35_success_deletes_exactly (s : Schema) (dbName : String) (sess : Session) (c : QName)
    (es : OMap ViewEntry) (hwf : ViewWF es) (key : Option (QueryKey Bytes)) (db db' : Db) (tid n : Nat)
    (h : deleteDocs s dbName sess c es key db tid = (.ok n, db')) :
    let Selected := fun (id : Bytes) => ∃ k, Selects key k ∧ (found es k id).isSome
    (∀ id, Selected id → (getDoc db c id).isSome ∧ getDoc db' c id = none) ∧
    (∀ c' id, ¬ (c' = c ∧ Selected id) → getDoc db' c' id = getDoc db c' id) ∧
    (∀ id k m, Selects key k → found es k id = some m →
      (getDoc db c id).map (·.header) = some m.source) ∧
    ∃ ids : List Bytes, ids.Nodup ∧ ids.length = n ∧ ∀ id, id ∈ ids ↔ Selected id := by
  intro Selected
  have hsel : ∀ id k m, (Selects key k ∧ found es k id = some m) →
      m.source ∈ selectedSources es key ∧ m.source.id = id := by
    rintro id k m ⟨hs, hf⟩
    rw [found_eq] at hf
    obtain ⟨hm, hid⟩ := findId_mem hf
    refine ⟨List.mem_map.mpr ⟨⟨m.source, k, m.value⟩, ?_, rfl⟩, hid⟩
    exact (C34_query_exact es hwf key .ascending _).mpr ⟨hs, hm⟩
  have hSel : ∀ id, id ∈ (selectedSources es key).map (·.id) ↔ Selected id := by
    intro id
    constructor
    · intro hin
      obtain ⟨hd, hhd, rfl⟩ := List.mem_map.mp hin
      obtain ⟨r, hr, rfl⟩ := List.mem_map.mp hhd
      obtain ⟨hs, hm⟩ := (C34_query_exact es hwf key .ascending r).mp hr
      refine ⟨r.key, hs, ?_⟩
      have := findId_of_mem (hwf.nodup r.key) hm
      rw [found_eq]
      simp only at this
      rw [this]; rfl
    · rintro ⟨k, hs, hf⟩
      obtain ⟨m, hm⟩ := Option.isSome_iff_exists.mp hf
      obtain ⟨h1, h2⟩ := hsel id k m ⟨hs, hm⟩
      exact List.mem_map.mpr ⟨_, h1, h2⟩
  unfold deleteDocs at h
  simp only [applyTransaction, deleteOps_eq] at h
  split at h
  · cases h
  · rename_i rs db1 ha
    split at ha
    · simp only [applyToRoots, prepare] at ha
      split at ha
      · cases ha
      · rename_i t ch rs' hp
        split at hp
        · split at hp
          · cases hp
          · rename_i t2 ch2 rs2 hrun
            cases hp
            cases ha
            cases h
            obtain ⟨h1, h2, h3, h4⟩ := runOps_deletes hrun
            have hg1 : ∀ id, Selected id → getDoc ⟨invalidateChanged s ch t2, db.log ++ [(tid, some ch)]⟩ c id = none := by
              intro id hs
              have := h4 c id
              rw [if_pos ⟨rfl, (hSel id).mpr hs⟩] at this
              exact this
            have hg2 : ∀ c' id, ¬ (c' = c ∧ Selected id) →
                getDoc ⟨invalidateChanged s ch t2, db.log ++ [(tid, some ch)]⟩ c' id = getDoc db c' id := by
              intro c' id hn
              have := h4 c' id
              rw [if_neg (by rw [hSel]; exact hn)] at this
              exact this
            refine ⟨?_, ?_, ?_, _, h1, ?_, hSel⟩
            · intro id hs
              refine ⟨?_, hg1 id hs⟩
              obtain ⟨hd, hhd, rfl⟩ := List.mem_map.mp ((hSel id).mpr hs)
              obtain ⟨d, hgd, _⟩ := h3 hd hhd
              simp only [getDoc]
              rw [hgd]; rfl
            · exact hg2
            · intro id k m hs hf
              obtain ⟨q1, q2⟩ := hsel id k m ⟨hs, hf⟩
              obtain ⟨d, hgd, he⟩ := h3 _ q1
              rw [q2] at hgd
              simp only [getDoc, hgd, Option.map_some, he]
            · rw [List.length_map, h2]
        · cases hp
    · cases ha

theorem apply_ok_of {s : Schema} {dbName : String} {sess : Session} {db : Db} {tid : Nat}
    {ops : List Operation} {t ch rs} (hp : ∀ op ∈ ops, allowed sess (required dbName op) = true)
    (hk : ∀ op ∈ ops, op.collection ∈ s.collections)
    (hr : runOps s db.trees ⟨[], []⟩ ops = .ok (t, ch, rs)) :
    ∃ db', applyTransaction s dbName sess db tid ops = (.ok rs, db') := by
  unfold applyTransaction
  rw [if_pos (List.all_eq_true.mpr hp)]
  unfold applyToRoots prepare
  rw [if_pos (collectionsKnown_iff.mpr hk), hr]
  exact ⟨_, rfl⟩

theorem recordChange_one {c : QName} {ch : Changes} (hc : ch.collections = [] ∨ ch.collections = [c])
    (id : Bytes) (del : Bool) :
    ∃ ch', recordChange ch (some (c, id, del)) = .ok ch' ∧ ch'.collections = [c] := by
  rcases hc with h | h
  · simp [recordChange, h]
  · simp [recordChange, h, List.idxOf?, List.findIdx?_cons]

theorem runOps_deletes_ok {s : Schema} {c : QName} (hne : NoEager s c) : ∀ {hs : List Header} {t ch},
    (ch.collections = [] ∨ ch.collections = [c]) →
    (hs.map (·.id)).Nodup → (∀ h ∈ hs, ∃ d, (t.docs c).get h.id = some d ∧ d.header = h) →
    ∃ r, runOps s t ch (hs.map fun h => ⟨c, .delete h⟩) = .ok r := by
  intro hs
  induction hs with
  | nil => intro t ch _ _ _; exact ⟨_, rfl⟩
  | cons h hs ih =>
    intro t ch hch hnd hall
    rw [List.map_cons, List.nodup_cons] at hnd
    obtain ⟨d, hd, hh⟩ := hall h (by simp)
    rw [List.map_cons, runOps]
    have hx : execOp s t ⟨c, .delete h⟩ = .ok (t.write c h.id none, .deleted c h.id) := by
      simp only [execOp, execDelete, hd, hh, if_true, updateEagerViews_none hne]
      rfl
    rw [hx]
    simp only [changedBy]
    obtain ⟨ch', hr, hc'⟩ := recordChange_one hch h.id true
    rw [hr]
    simp only
    obtain ⟨r, hr'⟩ := ih (t := t.write c h.id none) (.inr hc') hnd.2 (by
      intro h' hh'
      obtain ⟨d', hd', he'⟩ := hall h' (List.mem_cons_of_mem _ hh')
      refine ⟨d', ?_, he'⟩
      rw [write_get, if_neg]
      · exact hd'
      · rintro ⟨_, e⟩
        exact hnd.1 (List.mem_map.mpr ⟨h', hh', e⟩))
    rw [hr']
    exact ⟨_, rfl⟩

/-- **C35**, success: when the view is current (nothing left to map), no document has two mappings
among the selected ones, the caller may delete the documents and the collection has no eager view
that could refuse, `delete_docs` succeeds (and so by `C35_success_deletes_exactly` deletes exactly the
documents that emit a selected key).  Missing from the full property: documents with several selected
mappings, see `C35_violated_two_keys`. -/
theorem C35_succeeds_partial (s : Schema) (hdv : DistinctViews s) (v : View) (hv : v ∈ s.views)
    (σ₀ σ : VSys) (hst : VStart v σ₀) (he : VExec s σ₀ σ)
    (hmapped : ∀ id, (σ.db.trees.invalidated v.name).get id = none)
    (hcol : v.name.collection ∈ s.collections) (hne : NoEager s v.name.collection)
    (dbName : String) (sess : Session) (tid : Nat) (key : Option (QueryKey Bytes))
    (hperm : ∀ h, allowed sess (required dbName ⟨v.name.collection, .delete h⟩) = true)
    (honce : ((selectedSources (σ.db.trees.entries v.name) key).map (·.id)).Nodup) :
    ∃ n db', deleteDocs s dbName sess v.name.collection (σ.db.trees.entries v.name) key σ.db tid =
        (.ok n, db') ∧
      ∀ id, getDoc db' v.name.collection id = none ↔
        (getDoc σ.db v.name.collection id = none ∨
          ∃ d k x, getDoc σ.db v.name.collection id = some d ∧ Selects key k ∧ Emits v d k x) := by
  obtain ⟨hinv, _⟩ := vexec_inv hdv hv (vstart_inv hst) hst.known he
  have hwf := hinv.view.1.1
  have hshow := fun id => hinv.view.2 id (hmapped id)
  have hemit := C34_query_returns_what_documents_emit s hdv v hv σ₀ σ hst he hmapped key .ascending
  have hall : ∀ h ∈ selectedSources (σ.db.trees.entries v.name) key,
      ∃ d, (σ.db.trees.docs v.name.collection).get h.id = some d ∧ d.header = h := by
    intro h hh
    obtain ⟨r, hr, rfl⟩ := List.mem_map.mp hh
    obtain ⟨_, id, d, ms, hd, _, hs, _⟩ := (hemit r).mp hr
    have hid : d.header.id = id := hinv.own _ id d hd
    refine ⟨d, ?_, hs.symm⟩
    rw [hs, hid]; exact hd
  obtain ⟨r, hr⟩ := runOps_deletes_ok (ch := ⟨[], []⟩) hne (.inl rfl) honce hall
  obtain ⟨t, ch, rs⟩ := r
  obtain ⟨db', hdb⟩ := apply_ok_of (tid := tid) (dbName := dbName) (sess := sess)
    (ops := (selectedSources (σ.db.trees.entries v.name) key).map
      fun h => (⟨v.name.collection, .delete h⟩ : Operation))
    (by intro op hop; obtain ⟨h, _, rfl⟩ := List.mem_map.mp hop; exact hperm h)
    (by intro op hop; obtain ⟨h, _, rfl⟩ := List.mem_map.mp hop; exact hcol) hr
  have hok : deleteDocs s dbName sess v.name.collection (σ.db.trees.entries v.name) key σ.db tid =
      (.ok rs.length, db') := by
    unfold deleteDocs
    rw [deleteOps_eq, hdb]
  refine ⟨_, _, hok, ?_⟩
  obtain ⟨h1, h2, _, _⟩ := C35_success_deletes_exactly s dbName sess _ _ hwf key _ _ tid _ hok
  have hsel : ∀ id, (∃ k, Selects key k ∧ (found (σ.db.trees.entries v.name) k id).isSome) ↔
      ∃ d k x, getDoc σ.db v.name.collection id = some d ∧ Selects key k ∧ Emits v d k x := by
    intro id
    constructor
    · rintro ⟨k, hk, hf⟩
      obtain ⟨m, hm⟩ := Option.isSome_iff_exists.mp hf
      rw [(hshow id).2 k, expect_some] at hm
      obtain ⟨d, ms, hd, hms, _, hl⟩ := hm
      exact ⟨d, k, m.value, hd, hk, ms, hms, lastValue_mem hl⟩
    · rintro ⟨d, k, x, hd, hk, ms, hms, hin⟩
      refine ⟨k, hk, ?_⟩
      rw [(hshow id).2 k]
      have hl : (lastValue ms k).isSome := lastValue_isSome.mpr (List.mem_map.mpr ⟨_, hin, rfl⟩)
      obtain ⟨y, hy⟩ := Option.isSome_iff_exists.mp hl
      have : expect v ((σ.db.trees.docsOf v).get id) k = some ⟨d.header, y⟩ :=
        expect_some.mpr ⟨d, ms, hd, hms, rfl, hy⟩
      rw [this]; rfl
  intro id
  rw [← hsel]
  constructor
  · intro hn
    by_cases hs : ∃ k, Selects key k ∧ (found (σ.db.trees.entries v.name) k id).isSome
    · exact .inr hs
    · left
      rw [← h2 _ id (fun h => hs h.2)]
      exact hn
  · rintro (hn | hs)
    · by_cases hs : ∃ k, Selects key k ∧ (found (σ.db.trees.entries v.name) k id).isSome
      · exact (h1 id hs).2
      · rw [h2 _ id (fun h => hs h.2)]
        exact hn
    · exact (h1 id hs).2

/-! ## Violation -/

section Example

/-- A view emitting two keys for each document. -/
def exTwoKeys : View := ⟨exVName, .eager, 0, fun d => some [(d.contents, [1]), (1 :: d.contents, [1])],
  fun _ _ => .unimplemented⟩

/-- **C35 is violated**: one document emits two keys; `delete_docs` over everything (no concurrent
activity, no restrictions) fails with `DocumentNotFound` and the document stays. -/
theorem C35_violated_two_keys :
    ∃ (s : Schema) (v : View) (σ₀ σ : VSys), DistinctViews s ∧ v ∈ s.views ∧ VStart v σ₀ ∧
      VExec s σ₀ σ ∧ (∀ id, (σ.db.trees.invalidated v.name).get id = none) ∧
      ∃ id, (getDoc σ.db v.name.collection id).isSome ∧
        deleteDocs s "db" none v.name.collection (σ.db.trees.entries v.name) none σ.db 9 =
          (.error (.notFound v.name.collection id), σ.db) := by
  refine ⟨exWith exTwoKeys, exTwoKeys, exStart, _, exDistinct _, by simp [exWith], exStart_start _,
    .step (.refl _) (.transaction (tid := 1) (ops := [⟨exC, .insert (some [7]) [5]⟩]) rfl
      (Nat.zero_le _)), fun _ => rfl, [7], rfl, rfl⟩

/-- The hypotheses of `C35_succeeds_partial` are met: a lazy view mapped by a job. -/
example : ∃ σ, VExec (exWith exLazy) exStart σ ∧
    (∀ id, (σ.db.trees.invalidated exLazy.name).get id = none) ∧
    exLazy.name.collection ∈ (exWith exLazy).collections ∧
    NoEager (exWith exLazy) exLazy.name.collection ∧
    selectedSources (σ.db.trees.entries exLazy.name) (some (.matches_ [6])) = [⟨[7], ⟨1, [6]⟩⟩] := by
  refine ⟨_, .step (.step (.step (.step (.step (.step (.refl _) (.transaction (tid := 1)
      (ops := [⟨exC, .insert (some [7]) [5]⟩]) rfl (Nat.zero_le _)))
      (.transaction (tid := 2) (ops := [⟨exC, .overwrite [7] [6]⟩]) rfl (by decide)))
      (.begin (v := exLazy) (by simp [exWith])))
      (.scan (pre := []) (post := []) rfl))
      (.chunk (pre := []) (post := []) (p := [[7]]) (tid := 5) (bs := [[[7]]]) rfl (by simp)
        (by rw [exChunk.1]; exact .refl _) (by decide) rfl))
      (.done (pre := []) (post := []) (by rw [exChunk.2])), ?_, by decide, ?_, rfl⟩
  · intro id
    show (removeAll _ _).get id = none
    rw [removeAll_get]
    show (if id ∈ _ then none else OMap.get (OMap.set (OMap.set .empty [7] ()) [7] ()) id) = none
    rw [exChunk.1]
    simp only [OMap.get_set, List.mem_singleton]
    by_cases h : id = [7]
    · simp [h]
    · have : [7] ≠ id := fun e => h e.symm
      simp [h, this]
  · intro w hw
    simp only [Schema.viewsIn, exWith, List.mem_filter, List.mem_singleton] at hw
    rw [hw.1]; rfl

end Example

end Bonsai.Store
