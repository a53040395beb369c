import Verif.Store.Compat
import Mathlib.Data.List.Perm.Subperm
import Mathlib.Logic.Equiv.List
import Mathlib.Data.Countable.Basic

/-!
# C79: records of earlier versions read as what they recorded
-/
set_option linter.unusedSimpArgs false
set_option linter.unusedVariables false

namespace Bonsai.Store
open Bonsai Bonsai.Names

/-! ## Specification -/

/-- The id an earlier version recorded: a number in its big-endian form, or the bytes. -/
def legacyIdBytes : LegacyDocumentId → Bytes
  | .u64 n => toBE 8 n.toNat
  | .document b => b

/-- What an earlier version recorded: collection, id, deleted. -/
def legacyResolved (ds : List ChangedDocumentV0) : List (Option QName × Bytes × Bool) :=
  ds.map fun d => (some d.collection, legacyIdBytes d.id, d.deleted)

/-- `data` is a record of an earlier version, without a header: in `pot` or, before that, in `bincode`. -/
def OldRecord (C : LogCodec) (data : Bytes) (v0 : ChangesV0) : Prop :=
  (C.unwrap data).1 = 0 ∧ (C.potV0 (C.unwrap data).2 = .ok v0 ∨
    C.potV0 (C.unwrap data).2 = .notAPot ∧ ∃ ds, C.bincodeV0 (C.unwrap data).2 = some ds ∧ v0 = .documents ds)

/-- More than `n` different collections are among the changes. -/
def MoreThan (n : Nat) (ds : List ChangedDocumentV0) : Prop :=
  ∃ cols : List QName, cols.Nodup ∧ n < cols.length ∧ ∀ c ∈ cols, ∃ d ∈ ds, d.collection = c

/-! ## The conversion -/

theorem toId_eq (i : LegacyDocumentId) :
    i.toId = if (legacyIdBytes i).length ≤ 65535 then some (legacyIdBytes i) else none := by
  cases i with
  | document b => rfl
  | u64 n =>
    simp only [LegacyDocumentId.toId, legacyIdBytes, toBE_length]
    rfl

theorem legacyIndex_spec (cols : List QName) (c : QName) (hn : cols.Nodup) :
    (∃ i cols' tl, legacyIndex cols c = some (i, cols') ∧ cols' = cols ++ tl ∧ cols'[i]? = some c ∧ cols'.Nodup ∧
      (cols.length ≤ 65536 → cols'.length ≤ 65536) ∧ (∀ x, x ∈ cols' ↔ x ∈ cols ∨ x = c)) ∨
    (legacyIndex cols c = none ∧ c ∉ cols ∧ 65535 < cols.length) := by
  unfold legacyIndex
  cases hi : cols.idxOf? c with
  | some i =>
    have hg := idxOf?_get hi
    have hm : c ∈ cols := List.mem_of_getElem? hg
    refine .inl ⟨i, cols, [], rfl, by simp, hg, hn, id, ?_⟩
    intro x
    constructor
    · exact .inl
    · rintro (h | rfl)
      · exact h
      · exact hm
  | none =>
    have hm : c ∉ cols := by
      rw [List.idxOf?, List.findIdx?_eq_none_iff] at hi
      intro hc
      have := hi c hc
      simp at this
    by_cases hl : cols.length ≤ 65535
    · simp only [hl, if_true]
      refine .inl ⟨cols.length, cols ++ [c], [c], rfl, rfl, by simp, ?_, ?_, by simp⟩
      · rw [List.nodup_append]
        refine ⟨hn, by simp, ?_⟩
        intro a ha b hb
        simp only [List.mem_singleton] at hb
        rintro rfl
        exact hm (hb ▸ ha)
      · intro _; simp; omega
    · simp only [hl, if_false]
      exact .inr ⟨trivial, hm, by omega⟩

theorem convertDocs_spec (ds : List ChangedDocumentV0) : ∀ (ch : Changes), ch.valid → ch.collections.Nodup →
    ch.collections.length ≤ 65536 →
    (∃ ch', convertDocs ch ds = .ok ch' ∧ ch'.valid ∧ ch'.collections.Nodup ∧ ch'.collections.length ≤ 65536 ∧
      ch'.resolved = ch.resolved ++ legacyResolved ds ∧ (∀ d ∈ ds, (legacyIdBytes d.id).length ≤ 65535) ∧
      (∀ x, x ∈ ch'.collections ↔ x ∈ ch.collections ∨ ∃ d ∈ ds, d.collection = x)) ∨
    (convertDocs ch ds = .err ∧ ∃ d ∈ ds, 65535 < (legacyIdBytes d.id).length) ∨
    (convertDocs ch ds = .panic ∧ ∃ cols : List QName, cols.Nodup ∧ 65536 < cols.length ∧
      ∀ x ∈ cols, x ∈ ch.collections ∨ ∃ d ∈ ds, d.collection = x) := by
  induction ds with
  | nil =>
    intro ch hv hn hl
    refine .inl ⟨ch, rfl, hv, hn, hl, by simp [legacyResolved], by simp, by simp⟩
  | cons d ds ih =>
    intro ch hv hn hl
    rcases legacyIndex_spec ch.collections d.collection hn with ⟨i, cols', tl, he, rfl, hg, hn', hl', hmem⟩ | ⟨he, hm, hlt⟩
    · by_cases hid : (legacyIdBytes d.id).length ≤ 65535
      · have hto : d.id.toId = some (legacyIdBytes d.id) := by rw [toId_eq, if_pos hid]
        have hstep : convertDocs ch (d :: ds) =
            convertDocs ⟨ch.collections ++ tl, ch.documents ++ [⟨i, legacyIdBytes d.id, d.deleted⟩]⟩ ds := by
          simp only [convertDocs, he, hto]
        have hlti : i < (ch.collections ++ tl).length := by
          rcases Nat.lt_or_ge i (ch.collections ++ tl).length with h | h
          · exact h
          · rw [List.getElem?_eq_none h] at hg; cases hg
        have hv' : Changes.valid ⟨ch.collections ++ tl, ch.documents ++ [⟨i, legacyIdBytes d.id, d.deleted⟩]⟩ := by
          intro x hx
          simp only [List.mem_append, List.mem_singleton] at hx
          rcases hx with hx | rfl
          · have := hv x hx
            simp only [List.length_append]; omega
          · exact hlti
        have hres : Changes.resolved ⟨ch.collections ++ tl, ch.documents ++ [⟨i, legacyIdBytes d.id, d.deleted⟩]⟩ =
            ch.resolved ++ [(some d.collection, legacyIdBytes d.id, d.deleted)] := by
          simp only [Changes.resolved, List.map_append, List.map_cons, List.map_nil, hg]
          congr 1
          apply List.map_congr_left
          intro x hx
          rw [List.getElem?_append_left (hv x hx)]
        rw [hstep]
        rcases ih _ hv' hn' (hl' hl) with ⟨ch', h1, h2, h3, h4, h5, h6, h7⟩ | ⟨h1, x, hx, hxl⟩ | ⟨h1, cols, h2, h3, h4⟩
        · refine .inl ⟨ch', h1, h2, h3, h4, ?_, ?_, ?_⟩
          · rw [h5, hres, List.append_assoc]; rfl
          · intro x hx
            rcases List.mem_cons.mp hx with rfl | hx
            · exact hid
            · exact h6 x hx
          · intro x
            rw [h7 x, hmem x]
            simp only [List.mem_cons, exists_eq_or_imp]
            constructor
            · rintro ((h | rfl) | h)
              · exact .inl h
              · exact .inr (.inl rfl)
              · exact .inr (.inr h)
            · rintro (h | rfl | h)
              · exact .inl (.inl h)
              · exact .inl (.inr rfl)
              · exact .inr h
        · exact .inr (.inl ⟨h1, x, by simp [hx], hxl⟩)
        · refine .inr (.inr ⟨h1, cols, h2, h3, ?_⟩)
          intro x hx
          rcases h4 x hx with h | ⟨y, hy, rfl⟩
          · rcases (hmem x).mp h with h | rfl
            · exact .inl h
            · exact .inr ⟨d, by simp, rfl⟩
          · exact .inr ⟨y, by simp [hy], rfl⟩
      · have hto : d.id.toId = none := by rw [toId_eq, if_neg hid]
        refine .inr (.inl ⟨by simp only [convertDocs, he, hto], d, by simp, by omega⟩)
    · refine .inr (.inr ⟨by simp only [convertDocs, he], ch.collections ++ [d.collection], ?_, ?_, ?_⟩)
      · rw [List.nodup_append]
        refine ⟨hn, by simp, ?_⟩
        intro a ha b hb
        simp only [List.mem_singleton] at hb
        rintro rfl
        exact hm (hb ▸ ha)
      · simp; omega
      · intro x hx
        simp only [List.mem_append, List.mem_singleton] at hx
        rcases hx with hx | rfl
        · exact .inl hx
        · exact .inr ⟨d, by simp, rfl⟩

theorem convert_spec (ds : List ChangedDocumentV0) :
    (∃ ch, convertDocs ⟨[], []⟩ ds = .ok ch ∧ ch.valid ∧ ch.collections.Nodup ∧ ch.collections.length ≤ 65536 ∧
      ch.resolved = legacyResolved ds ∧ (∀ d ∈ ds, (legacyIdBytes d.id).length ≤ 65535) ∧
      (∀ x, x ∈ ch.collections ↔ ∃ d ∈ ds, d.collection = x)) ∨
    (convertDocs ⟨[], []⟩ ds = .err ∧ ∃ d ∈ ds, 65535 < (legacyIdBytes d.id).length) ∨
    (convertDocs ⟨[], []⟩ ds = .panic ∧ MoreThan 65536 ds) := by
  rcases convertDocs_spec ds ⟨[], []⟩ (by intro d hd; cases hd) (by simp) (by simp) with
    ⟨ch', h1, h2, h3, h4, h5, h6, h7⟩ | h | ⟨h1, cols, h2, h3, h4⟩
  · refine .inl ⟨ch', h1, h2, h3, h4, by simpa [Changes.resolved] using h5, h6, fun x => by simpa using h7 x⟩
  · exact .inr (.inl h)
  · exact .inr (.inr ⟨h1, cols, h2, h3, fun x hx => by simpa using h4 x hx⟩)

theorem oldRecord_iff (C : LogCodec) (data : Bytes) (v0 : ChangesV0) :
    OldRecord C data v0 ↔ (C.unwrap data).1 = 0 ∧ C.legacy (C.unwrap data).2 = some v0 := by
  unfold OldRecord LogCodec.legacy
  cases h : C.potV0 (C.unwrap data).2 with
  | ok c => simp
  | err => simp
  | notAPot =>
    cases C.bincodeV0 (C.unwrap data).2 with
    | none => simp
    | some ds =>
      simp only [Option.map_some, Option.some.injEq, exists_eq_left', reduceCtorEq, false_or, true_and]
      constructor
      · rintro ⟨h, rfl⟩; exact ⟨h, rfl⟩
      · rintro ⟨h, rfl⟩; exact ⟨h, rfl⟩

/-! ## C79 -/

/-- What this version writes it reads back. -/
theorem C79_written_is_read (C : LogCodec) (hC : C.Lawful) (c : AnyChanges) : C.read (C.write c) = .ok c := by
  simp only [LogCodec.read, LogCodec.write, hC.unwrap_header, hC.pot]

/-- A record of an earlier version that changed documents reads as changes of the same documents, in the same order;
each collection is listed once, and no others.  Partial: of at most 65,536 collections, with ids this version supports. -/
theorem C79_legacy_documents_partial (C : LogCodec) (data : Bytes) (ds : List ChangedDocumentV0)
    (h : OldRecord C data (.documents ds))
    (hids : ∀ d ∈ ds, (legacyIdBytes d.id).length ≤ 65535) (hcols : ¬ MoreThan 65536 ds) :
    ∃ ch, C.read data = .ok (.documents ch) ∧ ch.resolved = legacyResolved ds ∧ ch.valid ∧ ch.collections.Nodup ∧
      ∀ c, c ∈ ch.collections ↔ ∃ d ∈ ds, d.collection = c := by
  obtain ⟨hv, hl⟩ := (oldRecord_iff C data _).mp h
  have hr : C.read data = (convertDocs ⟨[], []⟩ ds).map .documents := by
    simp only [LogCodec.read, hv, hl, ChangesV0.convert]
  rw [hr]
  rcases convert_spec ds with ⟨ch, h1, h2, h3, h4, h5, h6, h7⟩ | ⟨h1, d, hd, hlt⟩ | ⟨h1, h2⟩
  · exact ⟨ch, by rw [h1]; rfl, h5, h2, h3, h7⟩
  · exact absurd (hids d hd) (by omega)
  · exact absurd h2 hcols

/-- A record of an earlier version that changed keys reads as the same keys. -/
theorem C79_legacy_keys (C : LogCodec) (data : Bytes) (ks : List ChangedKey)
    (h : OldRecord C data (.keys ks)) :
    C.read data = .ok (.keys ks) := by
  obtain ⟨hv, hl⟩ := (oldRecord_iff C data _).mp h
  simp only [LogCodec.read, hv, hl, ChangesV0.convert]

/-- Nothing else is read: a successful result is what a record of this version or of an earlier version says. -/
theorem C79_nothing_invented (C : LogCodec) (data : Bytes) (c : AnyChanges) (h : C.read data = .ok c) :
    ((C.unwrap data).1 = 1 ∧ C.potDec (C.unwrap data).2 = some c) ∨
    (∃ v0, OldRecord C data v0 ∧
      ((∃ ks, v0 = .keys ks ∧ c = .keys ks) ∨
       ∃ ds ch, v0 = .documents ds ∧ c = .documents ch ∧ ch.resolved = legacyResolved ds)) := by
  simp only [LogCodec.read] at h
  split at h
  · rename_i hv
    right
    split at h
    · cases h
    · rename_i v0 hl
      refine ⟨v0, (oldRecord_iff C data v0).mpr ⟨hv, hl⟩, ?_⟩
      cases v0 with
      | keys ks => cases h; exact .inl ⟨ks, rfl, rfl⟩
      | documents ds =>
        right
        simp only [ChangesV0.convert] at h
        rcases convert_spec ds with ⟨ch, h1, h2, h3, h4, h5, h6, h7⟩ | ⟨h1, _⟩ | ⟨h1, _⟩
        · rw [h1] at h; cases h; exact ⟨ds, ch, rfl, rfl, h5⟩
        · rw [h1] at h; cases h
        · rw [h1] at h; cases h
  · rename_i hv
    split at h
    · cases h
    · rename_i c' hp
      cases h
      exact .inl ⟨hv, hp⟩
  · cases h

/-- A record of a later version is refused. -/
theorem C79_unknown_version (C : LogCodec) (data : Bytes) (h : 2 ≤ (C.unwrap data).1) : C.read data = .err := by
  simp only [LogCodec.read]
  split
  · omega
  · omega
  · rfl

/-- **C79 is violated**: an earlier version could record changes of more than 65,536 collections in a transaction;
reading that record panics. -/
theorem C79_violated_too_many_collections (C : LogCodec) (data : Bytes) (ds : List ChangedDocumentV0)
    (h : OldRecord C data (.documents ds))
    (hids : ∀ d ∈ ds, (legacyIdBytes d.id).length ≤ 65535) (hcols : MoreThan 65536 ds) : C.read data = .panic := by
  obtain ⟨hv, hl⟩ := (oldRecord_iff C data _).mp h
  have hr : C.read data = (convertDocs ⟨[], []⟩ ds).map .documents := by
    simp only [LogCodec.read, hv, hl, ChangesV0.convert]
  rw [hr]
  rcases convert_spec ds with ⟨ch, h1, h2, h3, h4, h5, h6, h7⟩ | ⟨h1, d, hd, hlt⟩ | ⟨h1, h2⟩
  · exfalso
    obtain ⟨cols, hn, hlt, hsub⟩ := hcols
    have : cols.length ≤ ch.collections.length :=
      (List.subperm_of_subset hn fun c hc => (h7 c).mpr (hsub c hc)).length_le
    omega
  · exact absurd (hids d hd) (by omega)
  · rw [h1]; rfl

/-- Such records exist. -/
theorem C79_too_many_exists : ∃ ds : List ChangedDocumentV0,
    (∀ d ∈ ds, (legacyIdBytes d.id).length ≤ 65535) ∧ MoreThan 65536 ds := by
  have hinj : ∀ n m : Nat, String.ofList (List.replicate n 'a') = String.ofList (List.replicate m 'a') → n = m := by
    intro n m h
    have := congrArg (fun s => s.toList.length) h
    simpa using this
  refine ⟨(List.range 65537).map fun n => ⟨⟨"a", String.ofList (List.replicate n 'a')⟩, .u64 0, false⟩, ?_,
    (List.range 65537).map (fun n => ⟨"a", String.ofList (List.replicate n 'a')⟩), ?_, by rw [List.length_map, List.length_range]; omega, ?_⟩
  · intro d hd
    obtain ⟨n, _, rfl⟩ := List.mem_map.mp hd
    simp [legacyIdBytes, toBE_length]
  · rw [List.nodup_iff_pairwise_ne, List.pairwise_map]
    refine (List.nodup_iff_pairwise_ne.mp List.nodup_range).imp ?_
    intro a b hab he
    exact hab (hinj a b (QName.mk.inj he).2)
  · intro c hc
    obtain ⟨n, hn, rfl⟩ := List.mem_map.mp hc
    exact ⟨_, List.mem_map_of_mem (f := fun n : Nat => (⟨⟨"a", String.ofList (List.replicate n 'a')⟩, .u64 0, false⟩ : ChangedDocumentV0)) hn, rfl⟩

/-! ## Listing -/

theorem decodePage_ok (read : Bytes → Res AnyChanges) (es : List (Nat × Bytes)) (r : List (Nat × AnyChanges)) :
    decodePage read es = .ok r ↔ r.map (·.1) = es.map (·.1) ∧ r.map (fun p => Res.ok p.2) = es.map (fun e => read e.2) := by
  induction es generalizing r with
  | nil =>
    simp only [decodePage, List.map_nil, List.map_eq_nil_iff]
    constructor
    · intro h; cases h; exact ⟨rfl, rfl⟩
    · rintro ⟨rfl, _⟩; rfl
  | cons e es ih =>
    obtain ⟨i, b⟩ := e
    cases r with
    | nil =>
      simp only [decodePage, List.map_nil, List.map_cons]
      constructor
      · intro h
        cases hb : read b with
        | err => simp [hb] at h
        | panic => simp [hb] at h
        | ok c =>
          simp only [hb] at h
          cases hd : decodePage read es <;> simp [hd, Res.map] at h
      · rintro ⟨h, _⟩; cases h
    | cons p r =>
      obtain ⟨j, c⟩ := p
      simp only [decodePage, List.map_cons, List.cons.injEq]
      cases hb : read b with
      | err => simp
      | panic => simp
      | ok c' =>
        simp only []
        cases hd : decodePage read es with
        | err =>
          simp only [Res.map]
          constructor
          · intro h; cases h
          · rintro ⟨⟨_, h1⟩, _, h2⟩
            have := (ih r).mpr ⟨h1, h2⟩
            rw [hd] at this; cases this
        | panic =>
          simp only [Res.map]
          constructor
          · intro h; cases h
          · rintro ⟨⟨_, h1⟩, _, h2⟩
            have := (ih r).mpr ⟨h1, h2⟩
            rw [hd] at this; cases this
        | ok r' =>
          simp only [Res.map]
          constructor
          · intro h
            cases h
            have := (ih r).mp hd
            exact ⟨⟨rfl, this.1⟩, rfl, this.2⟩
          · rintro ⟨⟨rfl, h1⟩, hc, h2⟩
            have := (ih r).mpr ⟨h1, h2⟩
            rw [hd] at this
            cases this
            cases hc
            rfl

/-- A listing that succeeds is the page of the stored records, each read as it is; none is left out. -/
theorem C79_listing (C : LogCodec) (log : List (Nat × Option Bytes)) (start limit : Option Nat)
    (r : List (Nat × AnyChanges)) :
    C.list log start limit = .ok r ↔
      r.map (·.1) = ((executedFrom log (start.getD 0)).take (min (limit.getD 100) 1000)).map (·.1) ∧
      r.map (fun p => Res.ok p.2) =
        ((executedFrom log (start.getD 0)).take (min (limit.getD 100) 1000)).map (fun e => C.read e.2) := by
  rw [LogCodec.list, decodePage_ok, C25_listing]

/-- The listing of a log that this version wrote is the log's page. -/
theorem C79_listing_of_own_log (C : LogCodec) (hC : C.Lawful) (log : List (Nat × Option AnyChanges))
    (start limit : Option Nat) :
    C.list (log.map fun e => (e.1, e.2.map C.write)) start limit = .ok (listExecuted log start limit) := by
  rw [C79_listing, C25_listing]
  have he : executedFrom (log.map fun e => (e.1, e.2.map C.write)) (start.getD 0) =
      (executedFrom log (start.getD 0)).map fun e => (e.1, C.write e.2) := by
    simp only [executedFrom, List.filterMap_map, List.map_filterMap]
    congr 1
    funext e
    obtain ⟨i, d⟩ := e
    simp only [Function.comp]
    by_cases h : start.getD 0 ≤ i
    · simp only [h, if_true]; cases d <;> rfl
    · simp only [h, if_false]; rfl
  rw [he, ← List.map_take]
  constructor
  · rw [List.map_map]; rfl
  · rw [List.map_map]
    apply List.map_congr_left
    intro e _
    simp only [Function.comp, C79_written_is_read C hC]

/-! ## Iterating over changes -/

theorem get_valid {ch : Changes} (hv : ch.valid) {i : Nat} (h : i < ch.documents.length) :
    ∃ c, ch.collections[(ch.documents[i]).collection]? = some c ∧ ch.get i = some (c, ch.documents[i]) := by
  have hlt := hv _ (List.getElem_mem h)
  refine ⟨ch.collections[(ch.documents[i]).collection], List.getElem?_eq_getElem hlt, ?_⟩
  simp only [Changes.get, List.getElem?_eq_getElem h, List.getElem?_eq_getElem hlt]

theorem iterFrom_spec (ch : Changes) (hv : ch.valid) : ∀ fuel i, i ≤ ch.documents.length →
    ch.documents.length - i ≤ fuel →
    (ch.iterFrom fuel i).map (fun r => (some r.1, r.2)) =
      (ch.documents.drop i).map fun d => (ch.collections[d.collection]?, d) := by
  intro fuel
  induction fuel with
  | zero =>
    intro i hi hf
    rw [show i = ch.documents.length by omega, List.drop_length]
    rfl
  | succ fuel ih =>
    intro i hi hf
    by_cases h : i < ch.documents.length
    · obtain ⟨c, hc, hg⟩ := get_valid hv h
      simp only [Changes.iterFrom, Changes.iterNext, hg]
      rw [List.drop_eq_getElem_cons h, List.map_cons, List.map_cons, ih (i + 1) (by omega) (by omega), hc]
    · have he : i = ch.documents.length := by omega
      have hn : ch.documents[i]? = none := List.getElem?_eq_none (by omega)
      simp only [Changes.iterFrom, Changes.iterNext, Changes.get, hn]
      rw [he, List.drop_length]
      rfl

/-- Iterating over changes that were recorded or read yields every change once, in order, with its collection, and
then ends; the draining iterator yields the same. -/
theorem C79_iteration (ch : Changes) (hv : ch.valid) (fuel : Nat) (hf : ch.documents.length ≤ fuel) :
    (ch.iterFrom fuel 0).map (fun r => (some r.1, r.2.id, r.2.deleted)) = ch.resolved ∧
    intoIter ch.collections ch.documents = ch.iterFrom fuel 0 ∧
    ∀ i, ch.documents.length ≤ i → ch.iterNext i = none := by
  have h := iterFrom_spec ch hv fuel 0 (by omega) (by omega)
  rw [List.drop_zero] at h
  refine ⟨?_, ?_, ?_⟩
  · have := congrArg (List.map fun p : Option QName × ChangedDocument => (p.1, p.2.id, p.2.deleted)) h
    rw [List.map_map, List.map_map] at this
    exact this
  · have hd : ∀ ds : List ChangedDocument, (∀ d ∈ ds, d.collection < ch.collections.length) →
        (intoIter ch.collections ds).map (fun r => (some r.1, r.2)) = ds.map fun d => (ch.collections[d.collection]?, d) := by
      intro ds
      induction ds with
      | nil => intro _; rfl
      | cons d ds ih =>
        intro hds
        have hlt := hds d (by simp)
        simp only [intoIter, List.getElem?_eq_getElem hlt, List.map_cons]
        rw [ih fun x hx => hds x (by simp [hx])]
    have h2 := (hd ch.documents hv).trans h.symm
    have hinj : Function.Injective (fun r : QName × ChangedDocument => (some r.1, r.2)) := by
      rintro ⟨a, b⟩ ⟨a', b'⟩ hab
      simp only [Prod.mk.injEq, Option.some.injEq] at hab
      exact Prod.ext hab.1 hab.2
    exact List.map_injective_iff.mpr hinj h2
  · intro i hi
    have hn : ch.documents[i]? = none := List.getElem?_eq_none hi
    simp only [Changes.iterNext, Changes.get, hn]

/-! ## Documents -/

/-- A stored document reads as it was written. -/
theorem C79_document_written_is_read (C : DocCodec) (hC : ∀ d, C.potDec (C.potEnc d) = some d) (d : Document) :
    C.read (C.potEnc d) = some d := by
  simp only [DocCodec.read, hC]

/-- A document of an earlier version, which is not in the present format, reads with its revision and contents, and
with the id whose number is the recorded one. -/
theorem C79_legacy_document (C : DocCodec) (b : Bytes) (l : LegacyDocument) (hp : C.potDec b = none)
    (hl : C.bincodeDec b = some l) :
    ∃ d, C.read b = some d ∧ d.header.revision = l.revision ∧ d.contents = l.contents ∧
      d.header.id.length = 8 ∧ fromBE d.header.id = l.id.toNat := by
  refine ⟨⟨⟨toBE 8 l.id.toNat, l.revision⟩, l.contents⟩, by simp only [DocCodec.read, hp, hl], rfl, rfl, toBE_length _ _, ?_⟩
  exact fromBE_toBE (by have := l.id.isLt; simpa using this)

/-! ## Cases -/

/-- A codec with numbered records: version in the first byte. -/
def exCodec : LogCodec :=
  { header := fun v => [UInt8.ofNat v]
    unwrap := fun b => match b with
      | [] => (0, [])
      | v :: r => (v.toNat, r)
    potEnc := fun _ => [7]
    potDec := fun b => if b = [7] then some (.keys []) else none
    potV0 := fun b => if b = [9] then .ok (.keys [⟨none, "a", true⟩]) else if b = [8] then .err else .notAPot
    bincodeV0 := fun b => if b = [5] then some [⟨⟨"a", "x"⟩, .u64 3, false⟩, ⟨⟨"a", "y"⟩, .document [1], true⟩,
      ⟨⟨"a", "x"⟩, .u64 4, true⟩] else none }

example : exCodec.read [0, 5] = .ok (.documents ⟨[⟨"a", "x"⟩, ⟨"a", "y"⟩],
    [⟨0, [0, 0, 0, 0, 0, 0, 0, 3], false⟩, ⟨1, [1], true⟩, ⟨0, [0, 0, 0, 0, 0, 0, 0, 4], true⟩]⟩) := by decide
example : ∃ ds, OldRecord exCodec [0, 5] (.documents ds) ∧ ds.length = 3 := ⟨_, ⟨rfl, .inr ⟨rfl, _, rfl, rfl⟩⟩, rfl⟩
example : exCodec.read [0, 9] = .ok (.keys [⟨none, "a", true⟩]) := by decide
example : exCodec.read [0, 8] = .err := by decide
example : exCodec.read [2, 7] = .err := by decide

/-- One record that cannot be read hides the whole page. -/
example : exCodec.list [(1, some [1, 7]), (2, some [2, 7])] none none = .err := by decide

/-! Codecs as `C79_written_is_read` assumes them exist. -/

instance : Countable Char := (show Function.Injective Char.toNat from fun a b h => Char.ext (UInt32.toNat_inj.mp h)).countable
instance : Countable String := (Function.LeftInverse.injective (f := String.toList) (g := String.ofList) (fun s => by simp)).countable
instance : Countable QName := (show Function.Injective (fun q : QName => (q.authority, q.name)) from by
  rintro ⟨a, b⟩ ⟨c, d⟩ h; simp at h; simp [h]).countable
instance : Countable UInt8 := (show Function.Injective UInt8.toNat from fun a b h => UInt8.toNat_inj.mp h).countable
instance : Countable ChangedDocument := (show Function.Injective (fun q : ChangedDocument => (q.collection, q.id, q.deleted)) from by
  rintro ⟨a, b, c⟩ ⟨d, e, f⟩ h; simp at h; simp [h]).countable
instance : Countable ChangedKey := (show Function.Injective (fun q : ChangedKey => (q.ns, q.key, q.deleted)) from by
  rintro ⟨a, b, c⟩ ⟨d, e, f⟩ h; simp at h; simp [h]).countable
instance : Countable Changes := (show Function.Injective (fun q : Changes => (q.collections, q.documents)) from by
  rintro ⟨a, b⟩ ⟨d, e⟩ h; simp at h; simp [h]).countable
instance : Countable AnyChanges := (show Function.Injective (fun q : AnyChanges => match q with
  | .documents c => (Sum.inl c : Changes ⊕ List ChangedKey)
  | .keys k => .inr k) from by
  rintro (a | a) (b | b) h <;> simp at h <;> simp [h]).countable

/-- Lawful codecs exist. -/
theorem lawful_exists : ∃ C : LogCodec, C.Lawful := by
  obtain ⟨f, hf⟩ := exists_injective_nat AnyChanges
  classical
  refine ⟨{
    header := fun v => List.replicate v 1 ++ [0]
    unwrap := fun b => ((b.takeWhile (· = 1)).length, (b.dropWhile (· = 1)).drop 1)
    potEnc := fun c => List.replicate (f c) 0
    potDec := fun b => if h : ∃ c, f c = b.length then some h.choose else none
    potV0 := fun _ => .err
    bincodeV0 := fun _ => none }, ?_, ?_⟩
  · intro v b
    have h1 : ((List.replicate v (1 : UInt8) ++ [0]) ++ b).takeWhile (· = 1) = List.replicate v 1 := by
      induction v with
      | zero => simp
      | succ v ih => simp [List.replicate_succ]
    have h2 : ((List.replicate v (1 : UInt8) ++ [0]) ++ b).dropWhile (· = 1) = 0 :: b := by
      clear h1
      induction v with
      | zero => simp
      | succ v ih => simp [List.replicate_succ]
    simp only [h1, h2]
    simp
  · intro c
    have h : ∃ c', f c' = (List.replicate (f c) (0 : UInt8)).length := ⟨c, by simp⟩
    simp only [h, dif_pos]
    exact congrArg some (hf (h.choose_spec.trans List.length_replicate))
end Bonsai.Store
