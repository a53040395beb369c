import Verif.Storage.C46
import Verif.Views.C29

/-!
# C56: a recreated database starts empty

Deleting removes the directory, the record and the open files (`Storage/Databases.lean`); what a
process keeps besides is `Statuses` of `tasks.rs`, keyed by the *name* of the database
(tasks.rs:38-45), which `delete_database` does not clear.  Handles to the deleted database that are
still in use are not modelled.
-/
set_option linter.unusedSimpArgs false
set_option linter.unusedSectionVars false

namespace Bonsai.Storage
open Bonsai Bonsai.Names

variable {S : Type} [DecidableEq S]

/-! ## Files -/

/-- Events that use valid, non-empty names, and do not open or use the database `name`
(creating it is allowed). -/
def Elsewhere (name : String) : Event S → Prop
  | .create _ _ _ _ => True
  | .open n _ _ => validateName n = true ∧ n ≠ "" ∧ n ≠ name
  | .use n _ => validateName n = true ∧ n ≠ "" ∧ n ≠ name
  | .delete n _ => validateName n = true ∧ n ≠ ""
  | .restart => True

theorem overlay_other {st : St S} {a b : String} {fs new : Path → Option Bytes} (hne : a ≠ b) {q : Path}
    (hq : ownDir st a <+: q) : overlay fs (ownDir st b) new q = fs q := by
  have hnot : ¬ ownDir st b <+: q := by
    intro ha
    unfold ownDir at hq ha
    obtain ⟨t, ht⟩ := hq
    obtain ⟨u, hu⟩ := ha
    rw [← ht] at hu
    simp only [List.append_assoc, List.singleton_append, List.append_cancel_left_eq, List.cons.injEq] at hu
    exact hne (String.toList_inj.mp hu.1.symm)
  simp [overlay, hnot]

theorem next_keeps_empty {st : St S} {name : String} (hna : name ≠ adminName)
    (h : (∀ q, ownDir st name <+: q → st.fs q = none) ∧ st.openRoots name = false)
    (e : Event S) (he : Elsewhere name e) :
    (st.next e).base = st.base ∧
    (∀ q, ownDir st name <+: q → (st.next e).fs q = none) ∧ (st.next e).openRoots name = false := by
  obtain ⟨h1, h2⟩ := h
  cases e with
  | create n s o a =>
    simp only [St.next, St.create]
    split
    · split
      · split
        · refine ⟨rfl, fun q hq => ?_, h2⟩
          simp only
          rw [dir_admin st, overlay_other hna hq]
          exact h1 q hq
        · exact ⟨rfl, h1, h2⟩
      · exact ⟨rfl, h1, h2⟩
    · exact ⟨rfl, h1, h2⟩
  | «open» n e f =>
    obtain ⟨hv, hn0, hne⟩ := he
    simp only [St.next, St.open]
    split
    · exact ⟨rfl, h1, h2⟩
    · split
      · split
        · split
          · exact ⟨rfl, h1, h2⟩
          · refine ⟨rfl, fun q hq => ?_, ?_⟩
            · simp only
              rw [dir_valid st hv hn0, overlay_other (Ne.symm hne) hq]
              exact h1 q hq
            · simp only
              rw [setAt_ne _ _ (Ne.symm hne)]
              exact h2
        · exact ⟨rfl, h1, h2⟩
      · exact ⟨rfl, h1, h2⟩
  | use n f =>
    obtain ⟨hv, hn0, hne⟩ := he
    refine ⟨rfl, fun q hq => ?_, h2⟩
    simp only [St.next, St.use]
    rw [dir_valid st hv hn0, overlay_other (Ne.symm hne) hq]
    exact h1 q hq
  | delete n a =>
    obtain ⟨hv, hn0⟩ := he
    have hfs : ∀ q, ownDir st name <+: q →
        overlay st.fs (st.dir n) (fun _ => none) q = none := by
      intro q hq
      simp only [overlay]
      split
      · rfl
      · exact h1 q hq
    have hop : setAt st.openRoots n false name = false := by
      by_cases hx : name = n
      · subst hx; exact setAt_self _ _ _
      · rw [setAt_ne _ _ hx]; exact h2
    simp only [St.next, St.delete]
    cases hr : st.records n with
    | none => exact ⟨rfl, hfs, hop⟩
    | some s =>
      refine ⟨rfl, fun q hq => ?_, hop⟩
      have : overlay (overlay st.fs (st.dir n) fun _ => none) (ownDir st adminName) a q = none := by
        rw [overlay_other hna hq]; exact hfs q hq
      rw [← dir_admin st] at this
      exact this
  | restart => exact ⟨rfl, h1, rfl⟩

/-- **C56** (files): after deleting an existing database, whatever happens to other databases, however
often it is created again and however often the storage is restarted: until it is opened again there is
no file in its directory, and no open files of the old one that opening could hand out. -/
theorem C56_no_files_left (st st₁ st₂ : St S) (es es' : List (Event S)) (name : String)
    (adm : Path → Option Bytes) (hf : Fresh st) (h : Run st es st₁) (hne : name ≠ "")
    (hna : name ≠ adminName) (hr : (st₁.records name).isSome)
    (h' : Run (st₁.delete name adm).2 es' st₂) (hel : ∀ e ∈ es', Elsewhere name e) :
    (∀ q, ownDir st₂ name <+: q → st₂.fs q = none) ∧ st₂.openRoots name = false := by
  obtain ⟨-, -, hfs, -, -, hop, -⟩ := C46_delete_confined_partial st st₁ es h hf name hne hr adm
  have hb : (st₁.delete name adm).2.base = st₁.base := by
    unfold St.delete
    simp only
    cases st₁.records name <;> rfl
  suffices st₂.base = st₁.base ∧ (∀ q, ownDir st₁ name <+: q → st₂.fs q = none) ∧
      st₂.openRoots name = false by
    obtain ⟨a, b, c⟩ := this
    refine ⟨fun q hq => b q ?_, c⟩
    unfold ownDir at hq ⊢
    rwa [a] at hq
  generalize hst : (st₁.delete name adm).2 = d at *
  induction h' with
  | nil =>
    subst hst
    exact ⟨hb, hfs hna, hop⟩
  | @snoc st₃ es e hrun hu ih =>
    obtain ⟨a, b, c⟩ := ih (fun e he => hel e (by simp [he]))
    have hown : ownDir st₃ name = ownDir st₁ name := by unfold ownDir; rw [a]
    obtain ⟨x, y, z⟩ := next_keeps_empty hna ⟨by rw [hown]; exact b, c⟩ e (hel e (by simp))
    exact ⟨x.trans a, by rw [hown] at y; exact y, z⟩

/-- The database is then listed again exactly when it was created again. -/
theorem C56_listed_iff_recreated (st : St S) (name : String) (schema : S) (adm adm' : Path → Option Bytes)
    (hv : validateName name = true) (hreg : st.registered schema = true) (hr : (st.records name).isSome) :
    let st₁ := (st.delete name adm).2
    st₁.available name = none ∧ (st₁.create name schema false adm').1 = true ∧
      (st₁.create name schema false adm').2.available name = some schema ∧
      (st₁.create name schema false adm').2.records name = some schema := by
  intro st₁
  obtain ⟨sc, hsc⟩ := Option.isSome_iff_exists.mp hr
  have h1 : st₁.available name = none := by
    show (st.delete name adm).2.available name = none
    unfold St.delete; simp only [hsc]; exact setAt_self _ _ _
  have h2 : st₁.registered schema = true := by
    show (st.delete name adm).2.registered schema = true
    unfold St.delete; simp only [hsc]; exact hreg
  refine ⟨h1, ?_, ?_, ?_⟩ <;> simp [St.create, hv, h1, h2, setAt_self]

/-- A run that meets the hypotheses: created, opened, written, deleted, another one created and opened,
created again. -/
example : ∃ st₁ st₂, Run exSt [.create "shop" 1 false (fun _ => some [7]), .open "shop" none (fun _ => some [8])] st₁ ∧
    (st₁.records "shop").isSome ∧
    st₁.fs ["srv".toList, "db.bonsaidb".toList, "shop".toList, "_transactions".toList] = some [8] ∧
    Run (st₁.delete "shop" fun _ => some [9]).2
      [.create "b" 1 false (fun _ => some [7]), .open "b" none (fun _ => some [8]),
        .create "shop" 1 false (fun _ => some [7])] st₂ ∧
    st₂.available "shop" = some 1 ∧
    (∀ e ∈ ([.create "b" 1 false (fun _ => some [7]), .open "b" none (fun _ => some [8]),
        .create "shop" 1 false (fun _ => some [7])] : List (Event Nat)), Elsewhere "shop" e) := by
  refine ⟨_, _, .snoc _ (.snoc _ (.nil exSt) (by intro n f h; cases h)) (by intro n f h; cases h), ?_, ?_,
    .snoc _ (.snoc _ (.snoc _ (.nil _) (by intro n f h; cases h)) (by intro n f h; cases h))
      (by intro n f h; cases h), ?_, ?_⟩
  · decide
  · decide
  · decide
  · intro e he
    simp only [List.mem_cons, List.not_mem_nil, or_false] at he
    rcases he with rfl | rfl | rfl
    · trivial
    · exact ⟨by decide, by decide, by decide⟩
    · trivial

end Bonsai.Storage

namespace Bonsai.Store
open Bonsai Bonsai.Names

/-! ## Queries -/

/-- The database after `delete_database` and `create_database_with_schema` with the same name in the
same process (storage.rs:1017-1046, 977-1010): no documents, no views, no transactions; but the
statuses of its views stay (tasks.rs:38-45: `view_update_last_status` is keyed by the database's name). -/
def VSys.recreated (σ : VSys) : VSys :=
  { db := ⟨.empty, []⟩, jobs := [], results := σ.results, past := [(0, .empty)] }

/-- A brand new database in a new process. -/
def VSys.brandNew : VSys := { db := ⟨.empty, []⟩, jobs := [], results := fun _ => [], past := [(0, .empty)] }

theorem brandNew_start (v : View) : VStart v VSys.brandNew where
  jobs := rfl
  results := rfl
  past := rfl
  own := by intro c id d h; cases h
  entries := rfl
  docMap := rfl
  invalidated := by intro id h; cases h
  noDocs := fun _ _ => rfl

/-- `σ` is `τ` except that it may know additional statuses `old`. -/
structure SameBut (old : VName → List Nat) (σ τ : VSys) : Prop where
  db : σ.db = τ.db
  jobs : σ.jobs = τ.jobs
  past : σ.past = τ.past
  results : ∀ n, ∀ m ∈ σ.results n, m ∈ old n ∨ m ∈ τ.results n

theorem sameBut_step {s : Schema} {old : VName → List Nat} {σ σ' τ : VSys} (h : SameBut old σ τ)
    (hs : VStep s σ σ') : ∃ τ', VStep s τ τ' ∧ SameBut old σ' τ' := by
  obtain ⟨db, jobs, results, past⟩ := σ
  obtain ⟨db', jobs', results', past'⟩ := τ
  obtain ⟨h1, h2, h3, h4⟩ := h
  simp only at h1 h2 h3
  subst h1 h2 h3
  cases hs with
  | transaction hp htid => exact ⟨_, .transaction hp htid, rfl, rfl, rfl, h4⟩
  | other htid => exact ⟨_, .other htid, rfl, rfl, rfl, h4⟩
  | begin hv => exact ⟨_, .begin hv, rfl, rfl, rfl, h4⟩
  | scan hj => exact ⟨_, .scan hj, rfl, rfl, rfl, h4⟩
  | chunk hj hp hb htid hm => exact ⟨_, .chunk hj hp hb htid hm, rfl, rfl, rfl, h4⟩
  | @done pre post v m hj =>
    refine ⟨_, .done hj, rfl, rfl, rfl, ?_⟩
    intro n k hk
    by_cases hn : n = v.name
    · subst hn
      simp only [upd_self, List.mem_append] at hk ⊢
      rcases hk with hk | hk
      · rcases h4 _ k hk with h | h
        · exact .inl h
        · exact .inr (.inl h)
      · exact .inr (.inr hk)
    · simp only [upd_ne _ _ hn] at hk ⊢
      exact h4 n k hk
  | fail hj => exact ⟨_, .fail hj, rfl, rfl, rfl, h4⟩
  | restart => exact ⟨_, .restart, rfl, rfl, rfl, fun n m hm => absurd hm (by simp)⟩

theorem sameBut_exec {s : Schema} {old : VName → List Nat} {σ σ' τ : VSys} (h : SameBut old σ τ)
    (he : VExec s σ σ') : ∃ τ', VExec s τ τ' ∧ SameBut old σ' τ' := by
  induction he with
  | refl => exact ⟨τ, .refl _, h⟩
  | step _ hs ih =>
    obtain ⟨τ', h1, h2⟩ := ih
    obtain ⟨τ'', h3, h4⟩ := sameBut_step h2 hs
    exact ⟨τ'', .step h1 h3, h4⟩

theorem sameBut_recreated (σ : VSys) : SameBut σ.results σ.recreated VSys.brandNew :=
  ⟨rfl, rfl, rfl, fun _ _ h => .inl h⟩

/-- **C56** (data): whatever was in the old database, everything that can be committed in the
recreated one can equally be committed in a brand new database, and gives the same documents, views
and transactions. -/
theorem C56_same_data_as_brand_new (s : Schema) (old σ : VSys) (he : VExec s old.recreated σ) :
    ∃ τ, VExec s .brandNew τ ∧ σ.db = τ.db := by
  obtain ⟨τ, h1, h2⟩ := sameBut_exec (sameBut_recreated old) he
  exact ⟨τ, h1, h2.db⟩

/-- **C56** (views): a view with nothing left to map is exactly the mappings of the new documents. -/
theorem C56_views_hold_only_new_documents (s : Schema) (hdv : DistinctViews s) (v : View)
    (hv : v ∈ s.views) (old σ : VSys) (he : VExec s old.recreated σ)
    (hmapped : ∀ id, (σ.db.trees.invalidated v.name).get id = none) (key : Bytes) (m : EntryMapping) :
    m ∈ σ.at v key ↔ ∃ id d ms, (σ.db.trees.docsOf v).get id = some d ∧
      v.map d = some ms ∧ m.source = d.header ∧ lastValue ms key = some m.value := by
  obtain ⟨τ, h1, h2⟩ := sameBut_exec (sameBut_recreated old) he
  have := (C29_view_is_map_of_documents s hdv v hv .brandNew τ (brandNew_start v) h1
    (by rw [← h2.db]; exact hmapped)).2.1 key m
  unfold VSys.at at *
  rw [h2.db]
  exact this

/-- **C56** (queries, partial): a query of a view of the recreated database shows only documents of the
new database, as they were at or after the start of the query, if the transaction ids that mapping jobs
of the *old* database reported for the view are smaller than the last transaction id the query reads —
in particular if the view was not queried before the deletion.
(Missing: the other case, in which the query may skip mapping; see `C56_violated_query`.) -/
theorem C56_query_partial (s : Schema) (hdv : DistinctViews s) (v : View)
    (hv : v ∈ s.views) (old σ₁ σ' σ₂ : VSys) (h1 : VExec s old.recreated σ₁)
    (h' : VExec s σ₁ σ') (h2 : VExec s σ' σ₂)
    (hold : ∀ m ∈ old.results v.name, m < σ₁.db.lastTid)
    (hready : σ₁.db.lastTid = 0 ∨ ∃ m ∈ σ'.results v.name, σ₁.db.lastTid ≤ m) (id : Bytes) :
    ∃ τ, VExec s .brandNew τ ∧ σ₁.db.lastTid ≤ τ.db.lastTid ∧
      ∀ key, found (σ₂.db.trees.entries v.name) key id = expect v ((τ.db.trees.docsOf v).get id) key := by
  obtain ⟨τ₁, a1, b1⟩ := sameBut_exec (sameBut_recreated old) h1
  obtain ⟨τ', a', b'⟩ := sameBut_exec b1 h'
  obtain ⟨τ₂, a2, b2⟩ := sameBut_exec b' h2
  have hready' : τ₁.db.lastTid = 0 ∨ ∃ m ∈ τ'.results v.name, τ₁.db.lastTid ≤ m := by
    rw [← b1.db]
    rcases hready with h | ⟨m, hm, hle⟩
    · exact .inl h
    · rcases b'.results _ m hm with h | h
      · have := hold m h
        omega
      · exact .inr ⟨m, h, hle⟩
  obtain ⟨τ, x, y, z⟩ := C31_query_sees_earlier_commits s hdv v hv .brandNew τ₁ τ' τ₂
    (brandNew_start v) a1 a' a2 hready' id
  refine ⟨τ, a1.trans x, ?_, ?_⟩
  · rw [b1.db]
    obtain ⟨i1, k1⟩ := vexec_inv hdv hv (vstart_inv (brandNew_start v)) (brandNew_start v).known a1
    obtain ⟨i2, -⟩ := vexec_inv hdv hv i1 k1 x
    have hm : (τ₁.db.lastTid, τ₁.db.trees) ∈ τ.past := by
      have hin := List.mem_of_getLast? i1.cur
      clear y z i2
      induction x with
      | refl => exact hin
      | step _ hs ih => cases hs <;> first | exact ih | exact List.mem_append_left _ ih
    exact past_bound i2 hm
  · rw [b2.db]
    exact z

/-- After a restart the old statuses are gone, and the recreated database is like a brand new one. -/
theorem C56_after_restart (s : Schema) (old : VSys) (v : View) :
    ∃ σ, VStep s old.recreated σ ∧ VStart v σ := by
  refine ⟨_, .restart, ?_⟩
  exact brandNew_start v

section Example

/-- The old database of the example: an insert, then a query whose mapping job finished. -/
theorem exOld : ∃ σ, VExec (exWith exLazy) exStart σ ∧ σ.results exLazy.name = [11] := by
  refine ⟨_, .step (.step (.step (.step (.step (.refl _) (.transaction (tid := 10)
      (ops := [⟨exC, .insert (some [7]) [5]⟩]) rfl (Nat.zero_le _)))
      (.begin (v := exLazy) (by simp [exWith])))
      (.scan (pre := []) (post := []) rfl))
      (.chunk (pre := []) (post := []) (p := [[7]]) (tid := 12) (bs := [[[7]]]) rfl (by simp)
        (by rw [exChunk.1]; exact .refl _) (by decide) rfl))
      (.done (pre := []) (post := []) (by rw [exChunk.2])), rfl⟩

/-- **C56 is violated**: a database whose view was queried is deleted and created again; a document is
inserted, and a query of the view starts afterwards.  The status recorded for the old database is at
least the new database's last transaction id, so the query is ready at once (`needs_reindex` is false,
tasks.rs:68-82) — and does not return the mapping of the new document. -/
theorem C56_violated_query :
    ∃ (s : Schema) (v : View) (σ₀ old σ₁ : VSys), DistinctViews s ∧ v ∈ s.views ∧ VStart v σ₀ ∧
      VExec s σ₀ old ∧ VExec s old.recreated σ₁ ∧
      (∃ m ∈ σ₁.results v.name, σ₁.db.lastTid ≤ m) ∧
      ∃ id d key value, (σ₁.db.trees.docsOf v).get id = some d ∧ Emits v d key value ∧
        σ₁.at v key = [] := by
  obtain ⟨old, hold, hres⟩ := exOld
  refine ⟨exWith exLazy, exLazy, exStart, old, _, exDistinct _, by simp [exWith], exStart_start _, hold,
    .step (.refl _) (.transaction (tid := 1) (ops := [⟨exC, .insert (some [8]) [6]⟩]) rfl (Nat.zero_le _)),
    ⟨11, ?_, by show (2 : Nat) ≤ 11; decide⟩, [8], ⟨⟨[8], ⟨0, [6]⟩⟩, [6]⟩, [6], [1], rfl, ⟨_, rfl, by simp⟩, rfl⟩
  show 11 ∈ old.results exLazy.name
  rw [hres]; simp

/-- A query of a recreated database that does map: the old status is smaller. -/
example : ∃ old σ₁ σ', (∃ σ₀, VExec (exWith exLazy) σ₀ old) ∧ VExec (exWith exLazy) old.recreated σ₁ ∧
    VExec (exWith exLazy) σ₁ σ' ∧ old.results exLazy.name ≠ [] ∧
    (∀ m ∈ old.results exLazy.name, m < σ₁.db.lastTid) ∧
    (∃ m ∈ σ'.results exLazy.name, σ₁.db.lastTid ≤ m) ∧
    σ'.at exLazy [6] = [⟨⟨[8], ⟨0, [6]⟩⟩, [1]⟩] := by
  obtain ⟨old, hold, hres⟩ := exOld
  refine ⟨old, _, _, ⟨exStart, hold⟩,
    .step (.refl _) (.transaction (tid := 20) (ops := [⟨exC, .insert (some [8]) [6]⟩]) rfl (Nat.zero_le _)),
    .step (.step (.step (.step (.refl _) (.begin (v := exLazy) (by simp [exWith])))
      (.scan (pre := []) (post := []) rfl))
      (.chunk (pre := []) (post := []) (p := [[8]]) (tid := 22) (bs := [[[8]]]) rfl (by simp)
        (by rw [show chunkIds [[8]] = [[8]] by simp [chunkIds, chunkSize]]; exact .refl _) (by show (21 : Nat) ≤ 22; decide) rfl))
      (.done (pre := []) (post := []) (by rw [show chunkRest [[8]] = [] by simp [chunkRest, chunkSize]])),
    by rw [hres]; simp, ?_, ⟨21, ?_, by show (21 : Nat) ≤ 21; decide⟩, rfl⟩
  · rw [hres]; intro m hm; simp only [List.mem_singleton] at hm; subst hm; show (11 : Nat) < 21; decide
  · show 21 ∈ old.results exLazy.name ++ [21]
    simp

end Example

end Bonsai.Store
