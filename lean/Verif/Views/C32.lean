import Verif.Views.C29

/-!
# C32: the integrity scan and concurrent transactions

`crates/bonsaidb-local/src/views/integrity_scanner.rs:43-127`: when the stored version of a view is
outdated, the scanner reads the ids of all documents, deletes the three trees of the view (three
separate calls), and then marks the ids it read in one transaction that also stores the new version.
Transactions of other threads commit between these steps.  For eager views the transactions of the
collection wait for the scan first (database.rs:1150-1176), so the interleaving concerns lazy views.
-/
set_option linter.unusedSimpArgs false

namespace Bonsai.Store
open Bonsai Bonsai.Names

/-- Where the scanner is: nothing done; ids read (line 75); invalidated list deleted (79); entries
deleted (80); document map deleted (81); final transaction committed (89-104). -/
inductive ScanPhase where
  | start
  | read (ids : List Bytes)
  | noMarks (ids : List Bytes)
  | noEntries (ids : List Bytes)
  | wiped (ids : List Bytes)
  | done

structure ScanSys where
  trees : Trees
  phase : ScanPhase

/-- Mark ids for mapping, integrity_scanner.rs:96-102. -/
def markAll (m : OMap Unit) (ids : List Bytes) : OMap Unit := ids.foldl (fun m id => m.set id ()) m

/-- One step: a step of the scanner of view `v`, or a committed transaction. -/
inductive ScanStep (s : Schema) (v : View) : ScanSys → ScanSys → Prop
  | readIds {t} : ScanStep s v ⟨t, .start⟩ ⟨t, .read (t.docsOf v).keys⟩
  | deleteMarks {t ids} : ScanStep s v ⟨t, .read ids⟩
      ⟨{ t with invalidated := upd t.invalidated v.name .empty }, .noMarks ids⟩
  | deleteEntries {t ids} : ScanStep s v ⟨t, .noMarks ids⟩
      ⟨{ t with entries := upd t.entries v.name .empty }, .noEntries ids⟩
  | deleteMap {t ids} : ScanStep s v ⟨t, .noEntries ids⟩
      ⟨{ t with docMap := upd t.docMap v.name .empty }, .wiped ids⟩
  | finish {t ids} : ScanStep s v ⟨t, .wiped ids⟩
      ⟨{ t with invalidated := upd t.invalidated v.name (markAll (t.invalidated v.name) ids) }, .done⟩
  | transaction {t ph ops t' ch rs} (hp : prepare s t ops = .ok (t', ch, rs)) :
      ScanStep s v ⟨t, ph⟩ ⟨t', ph⟩

inductive ScanExec (s : Schema) (v : View) : ScanSys → ScanSys → Prop
  | refl (σ) : ScanExec s v σ σ
  | step {σ σ' σ''} (h : ScanExec s v σ σ') (hs : ScanStep s v σ' σ'') : ScanExec s v σ σ''

theorem markAll_get (ids : List Bytes) (m : OMap Unit) (id : Bytes) :
    ((markAll m ids).get id).isSome ↔ id ∈ ids ∨ (m.get id).isSome := by
  unfold markAll
  induction ids generalizing m with
  | nil => simp
  | cons x ids ih =>
    simp only [List.foldl_cons, ih, OMap.get_set, List.mem_cons]
    by_cases h : x = id
    · subst h; simp
    · have : id ≠ x := fun e => h e.symm
      simp [h, this]

/-- What a transaction does to a lazy view: entries and document map stay, marks grow, and every
document of the collection that changed is marked. -/
theorem prepare_lazy {s : Schema} (hdv : DistinctViews s) {v : View} (hv : v ∈ s.views)
    (hl : v.policy = .lazy) {t t' : Trees} {ops : List Operation} {ch : Changes}
    {rs : List OpResult} (h : prepare s t ops = .ok (t', ch, rs)) :
    t'.entries v.name = t.entries v.name ∧ t'.docMap v.name = t.docMap v.name ∧
      (∀ id, ((t.invalidated v.name).get id).isSome → ((t'.invalidated v.name).get id).isSome) ∧
      (∀ id, (t'.docsOf v).get id ≠ (t.docsOf v).get id →
        ((t'.invalidated v.name).get id).isSome) := by
  have he : v.policy.isEager = false := by rw [hl]; rfl
  unfold prepare at h
  split at h
  · split at h
    · cases h
    · rename_i t1 ch1 rs1 hr
      cases h
      obtain ⟨a, b, c, _, d⟩ := runOps_lazy hdv hv he hr
      refine ⟨a, b, ?_, ?_⟩
      · intro id hi
        rw [invalidateChanged_get]
        exact .inl (by rw [c]; exact hi)
      · intro id hne
        rw [invalidateChanged_get]
        refine .inr ⟨v, hv, rfl, he, ?_⟩
        refine Classical.byContradiction fun hn => hne ?_
        exact d _ id hn
  · cases h

/-- The ids read by the scanner, while they matter. -/
def ScanPhase.ids : ScanPhase → Option (List Bytes)
  | .read ids => some ids
  | .noMarks ids => some ids
  | .noEntries ids => some ids
  | .wiped ids => some ids
  | _ => none

/-- **C32**, partial: whatever commits in between, every document that existed when the scanner read
the ids is marked for mapping once the scan is done — also when it was changed meanwhile.  (Missing:
documents inserted between that read and the deletion of the list of marks, see
`C32_violated_insert_during_scan`.) -/
theorem C32_existing_documents_stay_marked_partial (s : Schema) (hdv : DistinctViews s) (v : View)
    (hv : v ∈ s.views) (hl : v.policy = .lazy) (t₁ t₂ : Trees)
    (he : ScanExec s v ⟨t₁, .read (t₁.docsOf v).keys⟩ ⟨t₂, .done⟩) (id : Bytes)
    (hid : ((t₁.docsOf v).get id).isSome) : ((t₂.invalidated v.name).get id).isSome := by
  have key : ∀ σ, ScanExec s v ⟨t₁, .read (t₁.docsOf v).keys⟩ σ →
      (match σ.phase with
        | .start => False
        | .done => ((σ.trees.invalidated v.name).get id).isSome
        | .read ids | .noMarks ids | .noEntries ids | .wiped ids => id ∈ ids) := by
    intro σ hex
    induction hex with
    | refl => exact OMap.mem_keys_iff.mpr hid
    | step _ hs ih =>
      cases hs with
      | readIds => exact ih.elim
      | deleteMarks => exact ih
      | deleteEntries => exact ih
      | deleteMap => exact ih
      | finish =>
        simp only [upd_self, markAll_get]
        exact .inl ih
      | @transaction t ph ops t' ch rs hp =>
        cases ph with
        | done => exact (prepare_lazy hdv hv hl hp).2.2.1 id ih
        | start => exact ih
        | read => exact ih
        | noMarks => exact ih
        | noEntries => exact ih
        | wiped => exact ih
  exact key _ he

/-- **C32**, partial: if nothing commits between reading the ids and deleting the marks, then — with
transactions committing at any other time — the finished scan leaves the view empty with every
document marked, the state from which C29 and C31 start. -/
theorem C32_quiet_read_loses_nothing_partial (s : Schema) (hdv : DistinctViews s) (v : View)
    (hv : v ∈ s.views) (hl : v.policy = .lazy) (t₁ t₂ : Trees)
    (he : ScanExec s v ⟨{ t₁ with invalidated := upd t₁.invalidated v.name .empty },
      .noMarks (t₁.docsOf v).keys⟩ ⟨t₂, .done⟩) :
    t₂.entries v.name = .empty ∧ t₂.docMap v.name = .empty ∧
      ∀ id, ((t₂.docsOf v).get id).isSome → ((t₂.invalidated v.name).get id).isSome := by
  let t₁' : Trees := { t₁ with invalidated := upd t₁.invalidated v.name .empty }
  have key : ∀ σ, ScanExec s v ⟨t₁', .noMarks (t₁.docsOf v).keys⟩ σ →
      (match σ.phase with
        | .start => False
        | .read _ => False
        | .noMarks ids => ∀ id, ((σ.trees.docsOf v).get id).isSome → id ∈ ids ∨
            ((σ.trees.invalidated v.name).get id).isSome
        | .noEntries ids => σ.trees.entries v.name = .empty ∧
            ∀ id, ((σ.trees.docsOf v).get id).isSome → id ∈ ids ∨
            ((σ.trees.invalidated v.name).get id).isSome
        | .wiped ids => σ.trees.entries v.name = .empty ∧ σ.trees.docMap v.name = .empty ∧
            ∀ id, ((σ.trees.docsOf v).get id).isSome → id ∈ ids ∨
            ((σ.trees.invalidated v.name).get id).isSome
        | .done => σ.trees.entries v.name = .empty ∧ σ.trees.docMap v.name = .empty ∧
            ∀ id, ((σ.trees.docsOf v).get id).isSome →
            ((σ.trees.invalidated v.name).get id).isSome) := by
    intro σ hex
    induction hex with
    | refl => intro id h; exact .inl (OMap.mem_keys_iff.mpr h)
    | step _ hs ih =>
      cases hs with
      | readIds => exact ih.elim
      | deleteMarks => exact ih.elim
      | deleteEntries => exact ⟨upd_self _ _ _, ih⟩
      | deleteMap => exact ⟨ih.1, upd_self _ _ _, ih.2⟩
      | finish =>
        refine ⟨ih.1, ih.2.1, ?_⟩
        intro id hd
        simp only [upd_self, markAll_get]
        exact ih.2.2 id hd
      | @transaction t ph ops t' ch rs hp =>
        obtain ⟨a, b, c, d⟩ := prepare_lazy hdv hv hl hp
        have marks : ∀ {P : Bytes → Prop}, (∀ id, ((t.docsOf v).get id).isSome → P id ∨
            ((t.invalidated v.name).get id).isSome) →
            ∀ id, ((t'.docsOf v).get id).isSome → P id ∨ ((t'.invalidated v.name).get id).isSome := by
          intro P hP id hi
          by_cases he : (t'.docsOf v).get id = (t.docsOf v).get id
          · rw [he] at hi
            rcases hP id hi with h | h
            · exact .inl h
            · exact .inr (c id h)
          · exact .inr (d id he)
        cases ph with
        | start => exact ih
        | read => exact ih
        | noMarks ids => exact marks ih
        | noEntries ids => exact ⟨a.trans ih.1, marks ih.2⟩
        | wiped ids => exact ⟨a.trans ih.1, b.trans ih.2.1, marks ih.2.2⟩
        | done =>
          refine ⟨a.trans ih.1, b.trans ih.2.1, ?_⟩
          intro id hi
          have := marks (P := fun _ => False) (fun id h => .inr (ih.2.2 id h)) id hi
          simpa using this
  exact key _ he

section Example

/-- **C32 is violated**: a document inserted between the scanner's read of the ids and its deletion of
the marks is in the collection, emits a key, and is neither marked nor in the view when the scan is
done. -/
theorem C32_violated_insert_during_scan :
    ∃ (s : Schema) (v : View) (t : Trees), DistinctViews s ∧ v ∈ s.views ∧ v.policy = .lazy ∧
      ScanExec s v ⟨.empty, .start⟩ ⟨t, .done⟩ ∧
      ∃ id d key value, (t.docsOf v).get id = some d ∧ Emits v d key value ∧
        (t.invalidated v.name).get id = none ∧ found (t.entries v.name) key id = none := by
  refine ⟨exWith exLazy, exLazy, _, exDistinct _, by simp [exWith], rfl,
    .step (.step (.step (.step (.step (.step (.refl _) .readIds)
      (.transaction (ops := [⟨exC, .insert (some [7]) [5]⟩]) rfl)) .deleteMarks) .deleteEntries)
      .deleteMap) .finish,
    [7], ⟨⟨[7], ⟨0, [5]⟩⟩, [5]⟩, [5], [1], rfl, ⟨_, rfl, by simp⟩, rfl, rfl⟩

/-- The finished scan of the violating run is a state in which nothing is left to map, so no later
mapping job repairs the view: C29's conclusion fails for it. -/
theorem C32_violated_view_misses_document :
    ∃ (s : Schema) (v : View) (t : Trees), v ∈ s.views ∧
      ScanExec s v ⟨.empty, .start⟩ ⟨t, .done⟩ ∧
      (∀ id, (t.invalidated v.name).get id = none) ∧
      ∃ id d key value, (t.docsOf v).get id = some d ∧ Emits v d key value ∧
        (t.entries v.name).get key = none := by
  refine ⟨exWith exLazy, exLazy, _, by simp [exWith],
    .step (.step (.step (.step (.step (.step (.refl _) .readIds)
      (.transaction (ops := [⟨exC, .insert (some [7]) [5]⟩]) rfl)) .deleteMarks) .deleteEntries)
      .deleteMap) .finish, fun id => rfl,
    [7], ⟨⟨[7], ⟨0, [5]⟩⟩, [5]⟩, [5], [1], rfl, ⟨_, rfl, by simp⟩, rfl⟩

/-- A database with one document. -/
@[reducible] def exUpd : Trees := { Trees.empty with
  docs := upd (fun _ => .empty) exC (OMap.empty.set [7] (Document.new (fun x => x) [7] [5])) }

/-- The hypotheses of the partial theorems are met: an existing document updated during the scan. -/
example : ∃ t : Trees, ScanExec (exWith exLazy) exLazy
    ⟨exUpd, .read (exUpd.docsOf exLazy).keys⟩ ⟨t, .done⟩ ∧
    ((exUpd.docsOf exLazy).get [7]).isSome ∧ (t.docsOf exLazy).get [7] ≠ (exUpd.docsOf exLazy).get [7] := by
  refine ⟨_, .step (.step (.step (.step (.step (.refl _)
      (.transaction (ops := [⟨exC, .overwrite [7] [6]⟩]) rfl)) .deleteMarks) .deleteEntries)
      .deleteMap) .finish, rfl, ?_⟩
  decide

end Example

end Bonsai.Store
