import Verif.Typed.C74b

/-!
# C74: typed view queries with documents, and deletion
-/
set_option linter.unusedSimpArgs false
set_option linter.unusedSectionVars false
set_option linter.unusedVariables false

namespace Bonsai.Typed
open Bonsai Bonsai.Names Bonsai.Query Bonsai.Store

variable {C : Coll} {V : TView C} {s : Schema} {S : Bytes → Prop}
variable {first : Option C.key.T} {next : C.key.T → Option C.key.T}

/-! ## Documents -/

theorem lookup_some {κ α : Type} [DecidableEq κ] {ps : List (κ × α)} {k : κ} {d : α}
    (h : lookup ps k = some d) : (k, d) ∈ ps := by
  induction ps with
  | nil => cases h
  | cons p ps ih =>
    simp only [lookup] at h
    cases hl : lookup ps k with
    | some x =>
      rw [hl] at h
      simp only [Option.some_or, Option.some.injEq] at h
      subst h
      exact List.mem_cons_of_mem _ (ih hl)
    | none =>
      rw [hl] at h
      simp only [Option.none_or] at h
      by_cases hp : p.1 = k
      · simp only [hp, if_true, Option.some.injEq] at h
        rw [← hp, ← h]; exact List.mem_cons_self
      · simp only [hp, if_false] at h; cases h

theorem lookup_isSome {κ α : Type} [DecidableEq κ] {ps : List (κ × α)} {k : κ} {d : α}
    (h : (k, d) ∈ ps) : ∃ d', lookup ps k = some d' := by
  induction ps with
  | nil => cases h
  | cons p ps ih =>
    simp only [lookup]
    rcases List.mem_cons.mp h with rfl | h
    · cases lookup ps k with
      | some x => exact ⟨x, rfl⟩
      | none => exact ⟨d, by simp⟩
    · obtain ⟨d', hd⟩ := ih h
      exact ⟨d', by rw [hd]; rfl⟩

theorem lookup_iff {κ α : Type} [DecidableEq κ] {ps : List (κ × α)}
    (hf : ∀ k d d', (k, d) ∈ ps → (k, d') ∈ ps → d = d') (k : κ) (d : α) :
    lookup ps k = some d ↔ (k, d) ∈ ps := by
  constructor
  · exact lookup_some
  · intro h
    obtain ⟨d', hd⟩ := lookup_isSome h
    rw [hd, hf k d' d (lookup_some hd) h]

/-- What `get` answers, by encoded id. -/
theorem get_ok {db : Db} {k : C.key.T} {cd : CDoc C} :
    get C db k = .ok (some cd) ↔
      ∃ id d, documentId C.key k = .ok id ∧ getDoc db C.name id = some d ∧ CDoc.ofDocument C d = .ok cd := by
  unfold get
  cases hid : documentId C.key k with
  | error e =>
    simp only
    constructor
    · intro h; cases h
    · rintro ⟨_, _, h, _⟩; cases h
  | ok id =>
    simp only
    cases hg : getDoc db C.name id with
    | none =>
      simp only
      constructor
      · intro h; cases h
      · rintro ⟨_, _, h, h2, _⟩; cases h; rw [hg] at h2; cases h2
    | some d =>
      simp only
      cases ho : CDoc.ofDocument C d with
      | error e =>
        simp only
        constructor
        · intro h; cases h
        · rintro ⟨_, _, h, h2, h3⟩; cases h; rw [hg] at h2; cases h2; rw [ho] at h3; cases h3
      | ok cd' =>
        simp only [Except.ok.injEq, Option.some.injEq]
        constructor
        · rintro rfl; exact ⟨id, d, rfl, hg, ho⟩
        · rintro ⟨_, _, h, h2, h3⟩
          subst h
          rw [hg] at h2; cases h2; rw [ho] at h3; cases h3; rfl

/-- **C74**, documents: a query with documents returns what the query returns, and — looked up by
primary key — the documents of its results as they are when they are fetched, which may be later
(`σ'`).  Nothing else is in the map. -/
theorem C74_with_docs [DecidableEq C.key.T] (σ₀ σ σ' : VSys) (h : ViewRun s S V first next σ₀ σ)
    (hm : UpToDate V σ ∨ σ₀.db.lastTid = 0) (hlater : TVExec s S C σ σ')
    (b : ViewSettings V.key) (hk : KeysEncodable V.key b.key) :
    ∃ rs cds, query V (stored V σ) b = .ok rs ∧
      queryWithCollectionDocs V (stored V σ) σ'.db b = .ok (rs, cds) ∧
      ∀ k d, lookup cds k = some d ↔ (∃ r ∈ rs, r.source.id = k) ∧ get C σ'.db k = .ok (some d) := by
  obtain ⟨D, hD, hf⟩ := h.snapshot hm
  obtain ⟨q, hq⟩ := serKey_ok hk
  obtain ⟨rs, h1, h2, h3, -⟩ := query_core h.view h.wf hD hf b hq
  have h' : ViewRun s S V first next σ₀ σ' := { h with exec := h.exec.trans hlater }
  obtain ⟨-, hr', -, hD'⟩ := h'.inv
  -- the ids
  have hids : ∀ k ∈ rs.map (fun r => r.source.id), ∃ id, documentId C.key k = .ok id := by
    intro k hk
    obtain ⟨r, hr, rfl⟩ := List.mem_map.mp hk
    obtain ⟨m, hm, hdec⟩ := (collect_mem h2 r).mp hr
    obtain ⟨r', e1, -, -, -, id, d, cd, g1, g2, g3, -, -⟩ := h3 m hm
    rw [hdec] at e1; cases e1
    obtain ⟨cd', f1, f2, -⟩ := hD id d g1
    rw [g2] at f1; cases f1
    exact ⟨id, by rw [g3]; exact f2⟩
  obtain ⟨ids, hids', -⟩ := collect_ok hids
  have hmem := (C36_get_multiple s S σ'.db hr' C.name ids).1
  -- the documents
  have hkd : ∀ d ∈ getDocs σ'.db.trees C.name ids, ∃ p, keyedDoc C d = .ok p := by
    intro d hd
    obtain ⟨-, hg⟩ := (hmem d).mp hd
    obtain ⟨cd, f1, f2, f3⟩ := hD' _ d hg
    have := ofDocument_header f1
    unfold CHeader.ofHeader at this
    cases hdec : decodeId C.key d.header.id with
    | error e => rw [hdec] at this; cases this
    | ok k => exact ⟨(k, d), by simp [keyedDoc, hdec]⟩
  obtain ⟨ds, hds, -⟩ := collect_ok hkd
  have hds_mem : ∀ k d, (k, d) ∈ ds → ∃ cd, CDoc.ofDocument C d = .ok cd ∧ cd.header.id = k ∧
      documentId C.key k = .ok d.header.id ∧ getDoc σ'.db C.name d.header.id = some d ∧ d.header.id ∈ ids := by
    intro k d hp
    obtain ⟨d', hd', he⟩ := (collect_mem hds _).mp hp
    obtain ⟨hi, hg⟩ := (hmem d').mp hd'
    obtain ⟨cd, f1, f2, f3⟩ := hD' _ d' hg
    have := ofDocument_header f1
    unfold CHeader.ofHeader at this
    unfold keyedDoc at he
    cases hdec : decodeId C.key d'.header.id with
    | error e => rw [hdec] at he; cases he
    | ok k' =>
      rw [hdec] at he this
      cases he
      simp only [Except.ok.injEq] at this
      have hkk : cd.header.id = k := by rw [← this]
      exact ⟨cd, f1, hkk, by rw [← hkk]; exact f2, hg, hi⟩
  have hcd : ∀ p ∈ ds, ∃ c, keyedCDoc C p = .ok c := by
    rintro ⟨k, d⟩ hp
    obtain ⟨cd, f1, -⟩ := hds_mem k d hp
    exact ⟨(k, cd), by simp [keyedCDoc, f1]⟩
  obtain ⟨cds, hcds, -⟩ := collect_ok hcd
  refine ⟨rs, cds, h1, ?_, ?_⟩
  · simp only [queryWithCollectionDocs, queryWithDocs, h1, hids', hds, hcds]
  have hcds_mem : ∀ k cd, (k, cd) ∈ cds ↔ ∃ d, (k, d) ∈ ds ∧ CDoc.ofDocument C d = .ok cd := by
    intro k cd
    rw [collect_mem hcds]
    constructor
    · rintro ⟨⟨k', d⟩, hp, he⟩
      unfold keyedCDoc at he
      cases ho : CDoc.ofDocument C d with
      | error e => simp only [ho] at he; cases he
      | ok c => simp only [ho] at he; cases he; exact ⟨d, hp, ho⟩
    · rintro ⟨d, hp, ho⟩
      exact ⟨(k, d), hp, by simp [keyedCDoc, ho]⟩
  have hfun : ∀ k d d', (k, d) ∈ cds → (k, d') ∈ cds → d = d' := by
    intro k d d' hp hp'
    obtain ⟨e, he, ho⟩ := (hcds_mem k d).mp hp
    obtain ⟨e', he', ho'⟩ := (hcds_mem k d').mp hp'
    obtain ⟨-, -, -, g1, g2, -⟩ := hds_mem k e he
    obtain ⟨-, -, -, f1, f2, -⟩ := hds_mem k e' he'
    rw [g1] at f1
    have hid : e.header.id = e'.header.id := by simpa using f1
    rw [hid, f2] at g2
    cases g2
    rw [ho] at ho'; cases ho'; rfl
  intro k d
  rw [lookup_iff hfun, hcds_mem, get_ok]
  constructor
  · rintro ⟨e, he, ho⟩
    obtain ⟨cd, -, -, g1, g2, g3⟩ := hds_mem k e he
    obtain ⟨k', hk', hid⟩ := (collect_mem hids' _).mp g3
    obtain ⟨r, hr, rfl⟩ := List.mem_map.mp hk'
    refine ⟨⟨r, hr, ?_⟩, _, e, g1, g2, ho⟩
    exact documentId_inj h.coll.key hid g1
  · rintro ⟨⟨r, hr, rfl⟩, id, e, g1, g2, ho⟩
    obtain ⟨cd, f1, f2, f3⟩ := hD' id e g2
    have hid : e.header.id = id := by rw [f3]
    have hin : id ∈ ids := (collect_mem hids' _).mpr ⟨_, List.mem_map.mpr ⟨r, hr, rfl⟩, g1⟩
    have he : e ∈ getDocs σ'.db.trees C.name ids := (hmem e).mpr ⟨by rw [hid]; exact hin, by rw [hid]; exact g2⟩
    obtain ⟨⟨k, e'⟩, hke⟩ := hkd e he
    have hin2 := (collect_mem hds _).mpr ⟨e, he, hke⟩
    have hee : e' = e := by
      unfold keyedDoc at hke
      cases hdec : decodeId C.key e.header.id with
      | error x => rw [hdec] at hke; cases hke
      | ok k' => rw [hdec] at hke; cases hke; rfl
    subst hee
    obtain ⟨cd', a1, a2, a3, -⟩ := hds_mem k e' hin2
    rw [ho] at f1 a1
    cases f1; cases a1
    refine ⟨e', ?_, ho⟩
    have : k = r.source.id := by
      rw [← a2]
      have hh := ofDocument_header ho
      rw [hid] at a3
      have := decodeId_of h.coll.key g1
      simp only [CHeader.ofHeader, hid, this, Except.ok.injEq] at hh
      rw [← hh]
    rw [← this]; exact hin2

/-- Iterating over the result of a query with documents, position by position. -/
theorem C74_iterate [DecidableEq C.key.T] (rs : List (TMapped V)) (cds : List (C.key.T × CDoc C)) :
    ((∀ r ∈ rs, (lookup cds r.source.id).isSome) →
      ∃ l, iterDocs rs cds = .ok l ∧ l.length = rs.length ∧
        ∀ (i : Nat) (r : TMapped V), rs[i]? = some r → ∃ d, lookup cds r.source.id = some d ∧ l[i]? = some (r.key, r.value, d) ∧
          mappedGet rs cds i = .ok (some (r.key, r.value, d))) ∧
    ((∃ r ∈ rs, lookup cds r.source.id = none) → iterDocs rs cds = .error .panic) := by
  constructor
  · intro hall
    induction rs with
    | nil => exact ⟨[], rfl, rfl, by simp⟩
    | cons r rs ih =>
      obtain ⟨l, h1, h2, h3⟩ := ih fun x hx => hall x (List.mem_cons_of_mem _ hx)
      obtain ⟨d, hd⟩ := Option.isSome_iff_exists.mp (hall r List.mem_cons_self)
      unfold iterDocs at h1
      refine ⟨(r.key, r.value, d) :: l, by simp [iterDocs, collect, hd, h1], by simp [h2], ?_⟩
      intro i x hx
      cases i with
      | zero =>
        simp only [List.getElem?_cons_zero, Option.some.injEq] at hx
        subst hx
        exact ⟨d, hd, rfl, by simp [mappedGet, hd]⟩
      | succ i =>
        simp only [List.getElem?_cons_succ] at hx
        obtain ⟨d', e1, e2, e3⟩ := h3 i x hx
        refine ⟨d', e1, by simpa using e2, ?_⟩
        simp only [mappedGet, List.getElem?_cons_succ, hx, e1] at e3 ⊢
  · rintro ⟨r, hr, hn⟩
    induction rs with
    | nil => cases hr
    | cons x rs ih =>
      unfold iterDocs at ih ⊢
      simp only [collect]
      cases hx : lookup cds x.source.id with
      | none => rfl
      | some d =>
        simp only
        rcases List.mem_cons.mp hr with rfl | hr
        · rw [hn] at hx; cases hx
        · rw [ih hr]

/-- **C74**, documents: if nothing was committed between the two reads of an up to date view, a query
with documents can be iterated: result by result, with the document that emitted it. -/
theorem C74_documents_partial [DecidableEq C.key.T] (σ₀ σ : VSys)
    (h : ViewRun s S V first next σ₀ σ) (hm : UpToDate V σ)
    (b : ViewSettings V.key) (hk : KeysEncodable V.key b.key) :
    ∃ rs cds l, query V (stored V σ) b = .ok rs ∧
      queryWithCollectionDocs V (stored V σ) σ.db b = .ok (rs, cds) ∧ iterDocs rs cds = .ok l ∧
      l.length = rs.length ∧
      ∀ (i : Nat) (r : TMapped V), rs[i]? = some r → ∃ d, l[i]? = some (r.key, r.value, d) ∧ get C σ.db r.source.id = .ok (some d) ∧
        d.header = r.source ∧ TEmits V d r.key r.value := by
  obtain ⟨rs, cds, h1, h2, h3⟩ := C74_with_docs σ₀ σ σ h (.inl hm) (.refl _) b hk
  have hD := h.inv.2.2.2
  have hex : ∀ r ∈ rs, ∃ d, get C σ.db r.source.id = .ok (some d) ∧ d.header = r.source ∧
      TEmits V d r.key r.value := by
    intro r hr
    obtain ⟨q, hq⟩ := serKey_ok hk
    obtain ⟨rs', g1, g2, g3, -⟩ := query_core h.view h.wf hD (h.found hm) b hq
    rw [h1] at g1; cases g1
    obtain ⟨m, hmm, hdec⟩ := (collect_mem g2 r).mp hr
    obtain ⟨r', e1, -, -, -, id, d, cd, f1, f2, f3, f4, f5⟩ := g3 m hmm
    rw [hdec] at e1; cases e1
    refine ⟨cd, ?_, f3.symm, f5⟩
    rw [f3]
    exact (get_some h.coll hD).mpr ⟨id, d, f1, f2⟩
  obtain ⟨l, i1, i2, i3⟩ := (C74_iterate rs cds).1 (by
    intro r hr
    obtain ⟨d, hd, -⟩ := hex r hr
    rw [(h3 r.source.id d).mpr ⟨⟨r, hr, rfl⟩, hd⟩]; rfl)
  refine ⟨rs, cds, l, h1, h2, i1, i2, ?_⟩
  intro i r hr
  obtain ⟨d, j1, j2, -⟩ := i3 i r hr
  have hmem := List.mem_of_getElem? hr
  obtain ⟨d', hd', hh, he⟩ := hex r hmem
  have := (h3 _ d).mp j1
  rw [hd'] at this
  have hdd : d' = d := by simpa using this.2
  subst hdd
  exact ⟨d', j2, hd', hh, he⟩

/-! ## Deletion -/

/-- **C74**, `delete_docs`: if it succeeds with `n` — the view read in `σ`, the transaction running on
a possibly later `σ'` — exactly the documents that are sources of the results of the query are gone,
each was still as the view showed it, every other document of every collection is unchanged, and `n`
documents were deleted; order and limit of the query do not matter. -/
theorem C74_delete_docs (dbName : String) (sess : Session) (σ₀ σ σ' : VSys)
    (h : ViewRun s S V first next σ₀ σ) (hm : UpToDate V σ ∨ σ₀.db.lastTid = 0)
    (hlater : TVExec s S C σ σ') (b : ViewSettings V.key) (hk : KeysEncodable V.key b.key)
    (tid n : Nat) (db' : Db)
    (hdel : Typed.deleteDocs s dbName sess V (stored V σ) b σ'.db tid = (.ok n, db')) :
    ∃ rs, query V (stored V σ) { key := b.key } = .ok rs ∧
      (∀ r ∈ rs, (∃ d, get C σ'.db r.source.id = .ok (some d) ∧ d.header = r.source) ∧
        get C db' r.source.id = .ok none) ∧
      (∀ k, (∀ r ∈ rs, r.source.id ≠ k) → get C db' k = get C σ'.db k) ∧
      (∀ c id, c ≠ C.name → getDoc db' c id = getDoc σ'.db c id) ∧
      ∃ ids : List C.key.T, ids.Nodup ∧ ids.length = n ∧ ∀ k, k ∈ ids ↔ ∃ r ∈ rs, r.source.id = k := by
  obtain ⟨D, hD, hf⟩ := h.snapshot hm
  obtain ⟨q, hq⟩ := serKey_ok hk
  obtain ⟨rs, h1, h2, h3, h4⟩ := query_core h.view h.wf hD hf { key := b.key } hq
  have h' : ViewRun s S V first next σ₀ σ' := { h with exec := h.exec.trans hlater }
  obtain ⟨-, hr', -, hD'⟩ := h'.inv
  have hraw : Store.deleteDocs s dbName sess C.name (stored V σ) q σ'.db tid = (.ok n, db') := by
    simp only [Typed.deleteDocs, hq] at hdel
    rcases hx : Store.deleteDocs s dbName sess C.name (stored V σ) q σ'.db tid with ⟨x, y⟩
    rw [hx] at hdel
    cases x with
    | error e => cases hdel
    | ok m => cases hdel; rfl
  obtain ⟨g1, g2, g3, ids, g4, g5, g6⟩ :=
    C35_success_deletes_exactly s dbName sess C.name (stored V σ) h.wf q σ'.db db' tid n hraw
  -- a result and its raw mapping
  have hres : ∀ r ∈ rs, ∃ id kb m, documentId C.key r.source.id = .ok id ∧ Selects q kb ∧
      Store.found (stored V σ) kb id = some m ∧ m.source = ⟨id, r.source.revision⟩ := by
    intro r hr
    obtain ⟨m, hmm, hdec⟩ := (collect_mem h2 r).mp hr
    obtain ⟨r', e1, -, -, -, id, d, cd, f1, f2, f3, f4, f5⟩ := h3 m hmm
    rw [hdec] at e1; cases e1
    obtain ⟨hsel, hmem⟩ := (C34_query_exact (stored V σ) h.wf q .ascending m).mp hmm
    obtain ⟨cd', c1, c2, c3⟩ := hD id d f1
    rw [f2] at c1; cases c1
    have hfound := findId_of_mem (h.wf.nodup m.key) hmem
    rw [← found_eq] at hfound
    simp only at hfound
    rw [f4, c3] at hfound
    exact ⟨id, m.key, _, by rw [f3]; exact c2, hsel, hfound, by rw [f3]⟩
  have hsel_res : ∀ id, (∃ kb, Selects q kb ∧ (Store.found (stored V σ) kb id).isSome) →
      ∃ r ∈ rs, documentId C.key r.source.id = .ok id := by
    rintro id ⟨kb, hsel, hfnd⟩
    obtain ⟨m, hmf⟩ := Option.isSome_iff_exists.mp hfnd
    rw [hf, expect_some] at hmf
    obtain ⟨d, ms, hd, hms, hsrc, hlv⟩ := hmf
    obtain ⟨cd, c1, c2, c3⟩ := hD id d hd
    obtain ⟨k, x, he, hkb, hxb⟩ := (rawMap_emits h.view c1 kb m.value).mp ⟨ms, hms, hlv⟩
    have hlen := emits_fits h.view he hkb
    exact ⟨⟨cd.header, k, x⟩, (h4 rfl _).mpr ⟨(selects_iff h.view.key hq hkb hlen).mp hsel,
      id, d, cd, hd, c1, rfl, he⟩, c2⟩
  refine ⟨rs, h1, ?_, ?_, ?_, ?_⟩
  · intro r hr
    obtain ⟨id, kb, m, e1, e2, e3, e4⟩ := hres r hr
    have hg := g3 id kb m e2 e3
    cases hd : getDoc σ'.db C.name id with
    | none => rw [hd] at hg; cases hg
    | some d =>
      rw [hd] at hg
      simp only [Option.map_some, Option.some.injEq] at hg
      obtain ⟨cd, c1, c2, c3⟩ := hD' id d hd
      refine ⟨⟨cd, ?_, ?_⟩, ?_⟩
      · exact get_ok.mpr ⟨id, d, e1, hd, c1⟩
      · have hh := ofDocument_header c1
        rw [hg, e4] at hh
        rw [ofHeader_of h.coll e1] at hh
        simpa using hh.symm
      · simp only [get, e1, (g1 id ⟨kb, e2, by rw [e3]; rfl⟩).2]
  · intro k hk'
    cases hid : documentId C.key k with
    | error e => simp only [get, hid]
    | ok id =>
      have : getDoc db' C.name id = getDoc σ'.db C.name id := by
        apply g2
        rintro ⟨-, hs⟩
        obtain ⟨r, hr, hri⟩ := hsel_res id hs
        exact hk' r hr (documentId_inj h.coll.key hri hid)
      simp only [get, hid, this]
  · intro c id hc
    exact g2 c id fun e => hc e.1
  · have hback : ∀ id ∈ ids, ∃ r ∈ rs, documentId C.key r.source.id = .ok id ∧
        decodeId C.key id = .ok r.source.id := by
      intro id hid
      obtain ⟨r, hr, hri⟩ := hsel_res id ((g6 id).mp hid)
      exact ⟨r, hr, hri, decodeId_of h.coll.key hri⟩
    obtain ⟨ks, hks, hmap⟩ := collect_ok (f := decodeId C.key) (l := ids)
      fun id hid => let ⟨r, _, _, e⟩ := hback id hid; ⟨_, e⟩
    refine ⟨ks, ?_, ?_, ?_⟩
    · refine collect_pairwise hks g4 ?_
      intro a ha a' ha' k k' hk1 hk2 hne heq
      obtain ⟨r, -, e1, e2⟩ := hback a ha
      obtain ⟨r', -, f1, f2⟩ := hback a' ha'
      rw [hk1] at e2; cases e2
      rw [hk2] at f2; cases f2
      rw [heq, f1] at e1
      apply hne
      simpa using e1.symm
    · have := congrArg List.length hmap
      simp only [List.length_map] at this
      omega
    · intro k
      rw [collect_mem hks]
      constructor
      · rintro ⟨id, hid, hdec⟩
        obtain ⟨r, hr, -, e2⟩ := hback id hid
        rw [hdec] at e2; cases e2
        exact ⟨r, hr, rfl⟩
      · rintro ⟨r, hr, rfl⟩
        obtain ⟨id, kb, m, e1, e2, e3, -⟩ := hres r hr
        exact ⟨id, (g6 id).mpr ⟨kb, e2, by rw [e3]; rfl⟩, decodeId_of h.coll.key e1⟩

end Bonsai.Typed
