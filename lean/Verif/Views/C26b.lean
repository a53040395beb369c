import Verif.Views.C30

/-!
# C26, view errors: a view fails only when the user's own functions fail
-/
set_option linter.unusedSimpArgs false

namespace Bonsai.Store
open Bonsai Bonsai.Names

/-- The user's reduce function of the view reports an error on some values. -/
def ReduceFails (v : View) : Prop := ∃ l, v.reduce l false = .error

theorem addMappings_not_view {v : View} : ∀ {ns ms : List EntryMapping},
    addMappings v ms ns ≠ .error .view := by
  intro ns
  induction ns with
  | nil => intro ms h; cases h
  | cons x ns ih =>
    intro ms h
    simp only [addMappings] at h
    split at h
    · cases h
    · exact ih h

theorem reduceEntry_view {v : View} {k r e} (h : reduceEntry v k r e = .error .view) :
    ReduceFails v := by
  unfold reduceEntry at h
  split at h
  · split at h
    · cases h
    · cases h
    · rename_i hr; exact ⟨_, hr⟩
  · cases h

theorem compareSwap_view {v : View} {r k old clean new}
    (h : compareSwap v r k old clean new = .error .view) : ReduceFails v := by
  unfold compareSwap at h
  simp only at h
  split at h
  · split at h
    · rename_i e he; cases h; exact absurd he addMappings_not_view
    · split at h
      · cases h
      · split at h
        · rename_i he; cases h; exact reduceEntry_view he
        · cases h
  · split at h
    · cases h
    · split at h
      · rename_i he; cases h; exact reduceEntry_view he
      · split at h
        · rename_i e he; cases h; exact absurd he addMappings_not_view
        · split at h
          · cases h
          · split at h
            · rename_i he; cases h; exact reduceEntry_view he
            · cases h

theorem updateEntries_view {v : View} {cl nw} : ∀ {ks r es},
    updateEntries v cl nw r es ks = .error .view → ReduceFails v := by
  intro ks
  induction ks with
  | nil => intro r es h; cases h
  | cons k ks ih =>
    intro r es h
    rw [updateEntries] at h
    split at h
    · rename_i he; cases h; exact compareSwap_view he
    · exact ih h
    · exact ih h

theorem mapDocs_none {v : View} {docs : OMap Document} : ∀ {order : List Bytes},
    mapDocs v docs order = none → ∃ id ∈ order, ∃ d, docs.get id = some d ∧ v.map d = none := by
  intro order
  induction order with
  | nil => intro h; cases h
  | cons id ids ih =>
    intro h
    cases hm : mapDoc v docs id with
    | none =>
      unfold mapDoc at hm
      split at hm
      · cases hm
      · rename_i d hd
        exact ⟨id, by simp, d, hd, by simpa using hm⟩
    | some m =>
      simp only [mapDocs, hm, Option.bind_some, Option.map_eq_none_iff] at h
      obtain ⟨i, hi, r⟩ := ih h
      exact ⟨i, by simp [hi], r⟩

/-- Mapping a batch fails with a view error only if the user's map fails on a document of the batch
or the user's reduce fails. -/
theorem mapBatch_view {v : View} {docs : OMap Document} {order : List Bytes}
    {st : OMap ViewEntry × OMap (List Bytes)} (h : mapBatch v docs order st = .error .view) :
    (∃ id ∈ order, ∃ d, docs.get id = some d ∧ v.map d = none) ∨ ReduceFails v := by
  unfold mapBatch at h
  split at h
  · rename_i hm; exact .inl (mapDocs_none hm)
  · split at h
    · rename_i hu; cases h; exact .inr (updateEntries_view hu)
    · cases h

theorem updateViewList_view {id : Bytes} : ∀ {vs : List View} {t : Trees},
    updateViewList vs id t = .error .view →
    ∃ v ∈ vs, (∃ d, (t.docsOf v).get id = some d ∧ v.map d = none) ∨ ReduceFails v := by
  intro vs
  induction vs with
  | nil => intro t h; cases h
  | cons v vs ih =>
    intro t h
    simp only [updateViewList] at h
    split at h
    · rename_i h1
      cases h
      unfold updateEagerView at h1
      rw [mapBatches_single] at h1
      split at h1
      · rename_i hb
        cases h1
        rcases mapBatch_view hb with ⟨i, hi, d, hd, hm⟩ | hr
        · simp only [List.mem_singleton] at hi
          subst hi
          exact ⟨v, by simp, .inl ⟨d, hd, hm⟩⟩
        · exact ⟨v, by simp, .inr hr⟩
      · cases h1
    · rename_i t1 h1
      obtain ⟨w, hw, hr⟩ := ih h
      refine ⟨w, by simp [hw], ?_⟩
      rwa [Trees.docsOf, (updateEagerView_docs h1).1] at hr

theorem updateStored_not_view {s : Schema} {c old id check x} :
    updateStored s c old id check x ≠ .error .view := by
  intro h
  unfold updateStored at h
  split at h
  · split at h
    · split at h
      · rename_i hn
        cases h
        unfold Revision.next at hn
        split at hn
        · cases hn
        · split at hn <;> cases hn
      · cases h
      · cases h
    · cases h
  · split at h <;> cases h

/-- A view error of one operation. -/
theorem execOp_view {s : Schema} {t : Trees} {op : Operation} (h : execOp s t op = .error .view) :
    (∃ id d, Puts op id d ∧
      updateEagerViews s op.collection id (t.write op.collection id (some d)) = .error .view) ∨
      ∃ id, updateEagerViews s op.collection id (t.write op.collection id none) = .error .view := by
  have hupd : ∀ (c' : QName) (id : Bytes) (check : Option Revision) (x : Bytes),
      execUpdate s c' t id check x = .error .view →
      ∃ d, d.header.id = id ∧ d.contents = x ∧
        updateEagerViews s c' id (t.write c' id (some d)) = .error .view := by
    intro c' id check x hx
    unfold execUpdate at hx
    split at hx
    · rename_i hu
      cases hx; exact absurd hu updateStored_not_view
    · cases hx
    · rename_i d hd hu
      split at hx
      · rename_i hst
        cases hx
        exact ⟨d, (updateStored_id hu).1, updateStored_contents hu, hst⟩
      · cases hx
  unfold execOp at h
  split at h
  · rename_i oid x hcmd
    unfold execInsert at h
    split at h
    · cases h
    · rename_i id hoid
      split at h
      · cases h
      · split at h
        · rename_i hst
          cases h
          refine .inl ⟨id, _, ⟨rfl, by rw [hcmd]; rfl, ?_⟩, hst⟩
          rw [hcmd]
          cases oid with
          | none => trivial
          | some i => simp at hoid; exact hoid
        · cases h
  · rename_i hd x hcmd
    obtain ⟨d, h1, h2, h3⟩ := hupd _ _ _ _ h
    exact .inl ⟨hd.id, d, ⟨h1, by rw [hcmd, h2]; rfl, by rw [hcmd]⟩, h3⟩
  · rename_i i x hcmd
    obtain ⟨d, h1, h2, h3⟩ := hupd _ _ _ _ h
    exact .inl ⟨i, d, ⟨h1, by rw [hcmd, h2]; rfl, by rw [hcmd]⟩, h3⟩
  · rename_i hd _
    unfold execDelete at h
    split at h
    · cases h
    · split at h
      · split at h
        · rename_i hst
          cases h
          exact .inr ⟨hd.id, hst⟩
        · cases h
      · cases h
  · unfold execCheck at h
    split at h
    · cases h
    · split at h
      · split at h <;> cases h
      · cases h

theorem recordChange_not_view {ch o} : recordChange ch o ≠ .error .view := by
  unfold recordChange
  split
  · simp
  · split
    · simp
    · split <;> simp

theorem runOps_view {s : Schema} : ∀ {ops : List Operation} {t ch},
    runOps s t ch ops = .error .view →
    ∃ pre op post t1 ch1 rs, ops = pre ++ op :: post ∧ runOps s t ch pre = .ok (t1, ch1, rs) ∧
      execOp s t1 op = .error .view := by
  intro ops
  induction ops with
  | nil => intro t ch h; cases h
  | cons op ops ih =>
    intro t ch h
    simp only [runOps] at h
    split at h
    · rename_i hx
      cases h
      exact ⟨[], op, ops, t, ch, [], rfl, rfl, hx⟩
    · rename_i t1 r hx
      split at h
      · rename_i hrc; cases h; exact absurd hrc recordChange_not_view
      · rename_i ch1 hrc
        split at h
        · rename_i hr
          cases h
          obtain ⟨pre, op', post, t2, ch2, rs, rfl, h1, h2⟩ := ih hr
          refine ⟨op :: pre, op', post, t2, ch2, r :: rs, rfl, ?_, h2⟩
          simp only [runOps, hx, hrc, h1]
        · cases h

/-- **C26**, view errors: a transaction fails with a view error only if, for an eager view of the
collection of one of its operations, the user's `map` fails on the document that operation puts, or
the user's `reduce` fails. In particular removing documents never makes `map` fail. -/
theorem C26_view_error_means_view_failed (s : Schema) (db db' : Db) (tid : Nat)
    (ops : List Operation) (h : applyToRoots s db tid ops = (.error .view, db')) :
    ∃ op ∈ ops, ∃ v ∈ s.views, v.name.collection = op.collection ∧ v.policy ≠ .lazy ∧
      ((∃ id d, Puts op id d ∧ v.map d = none) ∨ ReduceFails v) := by
  have hr : runOps s db.trees ⟨[], []⟩ ops = .error .view := by
    unfold applyToRoots at h
    split at h
    · rename_i hp
      cases h
      unfold prepare at hp
      split at hp
      · split at hp
        · rename_i hr; cases hp; exact hr
        · cases hp
      · cases hp
    · cases h
  obtain ⟨pre, op, post, t1, ch1, rs, rfl, _, hop⟩ := runOps_view hr
  refine ⟨op, by simp, ?_⟩
  have hpol : ∀ v : View, v.policy.isEager = true → v.policy ≠ .lazy := by
    intro v hv e; rw [e] at hv; cases hv
  rcases execOp_view hop with ⟨id, d, hp, hu⟩ | ⟨id, hu⟩
  · obtain ⟨v, hv, hc⟩ := updateViewList_view hu
    simp only [Schema.viewsIn, List.mem_filter, decide_eq_true_eq] at hv
    refine ⟨v, hv.1.1, hv.1.2, hpol v hv.2, ?_⟩
    rcases hc with ⟨d', hd', hm⟩ | hr
    · rw [Trees.docsOf, write_get, if_pos ⟨hv.1.2, rfl⟩] at hd'
      cases hd'
      exact .inl ⟨id, d, hp, hm⟩
    · exact .inr hr
  · obtain ⟨v, hv, hc⟩ := updateViewList_view hu
    simp only [Schema.viewsIn, List.mem_filter, decide_eq_true_eq] at hv
    refine ⟨v, hv.1.1, hv.1.2, hpol v hv.2, ?_⟩
    rcases hc with ⟨d', hd', hm⟩ | hr
    · rw [Trees.docsOf, write_get, if_pos ⟨hv.1.2, rfl⟩] at hd'
      cases hd'
    · exact .inr hr

/-- The views of the schema that could interfere with transactions: none does, when every eager view
is not unique and has a `map` and a `reduce` that never fail. -/
def ViewsNeverFail (s : Schema) : Prop :=
  ∀ v ∈ s.views, v.policy = .lazy ∨
    (v.policy = .eager ∧ (∀ d, v.map d ≠ none) ∧ ∀ l, v.reduce l false ≠ .error)

theorem addMappings_total {v : View} (hp : v.policy = .eager) : ∀ (ns ms : List EntryMapping),
    ∃ ms', addMappings v ms ns = .ok ms' := by
  intro ns
  induction ns with
  | nil => intro ms; exact ⟨ms, rfl⟩
  | cons n ns ih =>
    intro ms
    obtain ⟨ms', h⟩ := ih (upsert ms n)
    refine ⟨ms', ?_⟩
    have : uniqueConflict v ms n = none := by simp [uniqueConflict, hp]
    simp only [addMappings, this, h]

/-- **C26**, eager views that cannot fail: mapping documents always succeeds, so eager views never
make a transaction fail. -/
theorem C26_harmless_views_never_reject (s : Schema) (hs : ViewsNeverFail s) (db db' : Db) (tid : Nat)
    (ops : List Operation) (e : Err) (h : applyToRoots s db tid ops = (.error e, db')) :
    ¬ ViewErr e := by
  intro he
  cases e with
  | view =>
    obtain ⟨op, _, v, hv, _, hl, hc⟩ := C26_view_error_means_view_failed s db db' tid ops h
    rcases hs v hv with h0 | ⟨_, hm, hr⟩
    · exact hl h0
    · rcases hc with ⟨_, d, _, hd⟩ | ⟨l, hl'⟩
      · exact hm d hd
      · exact hr l hl'
  | uniqueViolation n a b =>
    have hr : runOps s db.trees ⟨[], []⟩ ops = .error (.uniqueViolation n a b) := by
      unfold applyToRoots at h
      split at h
      · rename_i hp
        cases h
        unfold prepare at hp
        split at hp
        · split at hp
          · rename_i hr; cases hp; exact hr
          · cases hp
        · cases hp
      · cases h
    obtain ⟨pre, op, post, t1, ch1, rs, rfl, _, hop⟩ := runOps_conflict hr
    have key : ∀ (vs : List View) (id : Bytes) (t : Trees), (∀ v ∈ vs, v.policy = .eager) →
        updateViewList vs id t ≠ .error (.uniqueViolation n a b) := by
      intro vs
      induction vs with
      | nil => intro id t _ h; cases h
      | cons v vs ih =>
        intro id t hp h
        simp only [updateViewList] at h
        split at h
        · rename_i h1
          cases h
          unfold updateEagerView at h1
          rw [mapBatches_single] at h1
          split at h1
          · rename_i hb
            cases h1
            have : ∀ {ks cl nw r es}, updateEntries v cl nw r es ks ≠ .error (.uniqueViolation n a b) := by
              intro ks cl nw
              induction ks with
              | nil => intro r es h; cases h
              | cons k ks ih =>
                intro r es h
                rw [updateEntries] at h
                split at h
                · rename_i hcs
                  cases h
                  unfold compareSwap at hcs
                  simp only at hcs
                  have hadd := addMappings_total (v := v) (hp v (by simp))
                  split at hcs
                  · split at hcs
                    · rename_i hx; obtain ⟨_, h'⟩ := hadd (nw k) ((es.get k).getD ⟨v.version, k, [], []⟩).mappings
                      rw [h'] at hx; cases hx
                    · split at hcs
                      · cases hcs
                      · split at hcs
                        · rename_i hr; cases hcs; exact reduceEntry_not_unique hr
                        · cases hcs
                  · split at hcs
                    · cases hcs
                    · split at hcs
                      · rename_i hr; cases hcs; exact reduceEntry_not_unique hr
                      · rename_i e1 _ _
                        split at hcs
                        · rename_i hx; obtain ⟨_, h'⟩ := hadd (nw k) e1.mappings
                          rw [h'] at hx; cases hx
                        · split at hcs
                          · cases hcs
                          · split at hcs
                            · rename_i hr; cases hcs; exact reduceEntry_not_unique hr
                            · cases hcs
                · exact ih h
                · exact ih h
            unfold mapBatch at hb
            split at hb
            · cases hb
            · split at hb
              · rename_i hu; cases hb; exact this hu
              · cases hb
          · cases h1
        · exact ih _ _ (fun w hw => hp w (by simp [hw])) h
    have hpol : ∀ v ∈ (s.viewsIn op.collection).filter fun v => v.policy.isEager, v.policy = .eager := by
      intro v hv
      simp only [Schema.viewsIn, List.mem_filter, decide_eq_true_eq] at hv
      rcases hs v hv.1.1 with h0 | h0
      · rw [h0] at hv; exact absurd hv.2 (by decide)
      · exact h0.1
    rcases execOp_conflict hop with ⟨id, d, _, hu⟩ | ⟨id, hu⟩
    · exact key _ _ _ hpol hu
    · exact key _ _ _ hpol hu
  | _ => exact he

/-! A concrete case: an eager view, a document inserted and deleted again. -/
section Example

/-- An eager view that never fails. -/
def exHarmless : View := ⟨exVName, .eager, 0, fun d => some [(d.contents, [1])], fun _ _ => .unimplemented⟩

example : ViewsNeverFail (exWith exHarmless) := by
  intro v hv
  simp only [exWith, List.mem_singleton] at hv
  subst hv
  exact .inr ⟨rfl, fun _ => by simp [exHarmless], fun _ => by simp [exHarmless]⟩

example : (applyToRoots (exWith exHarmless) .empty 1 [⟨exC, .insert (some [1]) [10]⟩,
    ⟨exC, .delete ⟨[1], ⟨0, [10]⟩⟩⟩]).1 = .ok [.updated exC ⟨[1], ⟨0, [10]⟩⟩, .deleted exC [1]] := rfl

/-- A view whose map fails on every document makes inserting fail. -/
def exFailing : View := ⟨exVName, .eager, 0, fun _ => none, fun _ _ => .unimplemented⟩
example : (applyToRoots (exWith exFailing) .empty 1 [⟨exC, .insert (some [1]) [10]⟩]).1 = .error .view := rfl

end Example

end Bonsai.Store
