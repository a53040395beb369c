import Verif.Views.Upgrade

/-!
# C80: views follow the running program through upgrades, downgrades and crashes
-/
set_option linter.unusedSimpArgs false
set_option linter.unusedVariables false

namespace Bonsai.Store
open Bonsai Bonsai.Names

/-! ## Versions -/

/-- A stored version counts as current exactly when it is what this version of the library writes for the version of
the view; missing, older and unreadable ones do not. -/
theorem C80_current_iff (C : VersionCodec) (stored : Option Bytes) (version : Nat) :
    (C.found stored).isCurrent version = true ↔ ∃ b, stored = some b ∧ C.dec b = .ok ⟨3, version⟩ := by
  cases stored with
  | none => simp [VersionCodec.found, ViewVersion.isCurrent]
  | some b =>
    simp only [VersionCodec.found, Option.bind_some, VersionCodec.fromBytes, Option.some.injEq, exists_eq_left']
    cases hd : C.dec b with
    | err => simp [ViewVersion.isCurrent]
    | notAPot =>
      by_cases hl : b.length = 8
      · simp [hl, ViewVersion.isCurrent]
      · simp [hl, ViewVersion.isCurrent]
    | ok v =>
      obtain ⟨i, k⟩ := v
      simp [ViewVersion.isCurrent]

theorem isCurrent_unique {C : VersionCodec} {stored : Option Bytes} {a b : Nat}
    (h1 : (C.found stored).isCurrent a = true) (h2 : (C.found stored).isCurrent b = true) : a = b := by
  simp only [ViewVersion.isCurrent, Bool.and_eq_true, beq_iff_eq] at h1 h2
  exact h1.2.symm.trans h2.2

theorem isCurrent_written {C : VersionCodec} (hC : C.Lawful) (k : Nat) :
    (C.found (some (C.enc (.currentFor k)))).isCurrent k = true := by
  rw [C80_current_iff]
  exact ⟨_, rfl, hC _⟩

/-! ## The views of a name -/

/-- The contract of `version`: programs whose view `n` has the same version have the same map function. -/
def Contract (F : VName → Nat → Document → Option (List (Bytes × Bytes))) (s : Schema) : Prop :=
  ∀ v ∈ s.views, v.map = F v.name v.version

/-- The programs of the theorem: views have different names and keep the contract, the view `n` is never left out, and
the version whose data was partly deleted by a scan that did not finish is not started again before another scan
finishes. -/
structure Allowed (C : VersionCodec) (F : VName → Nat → Document → Option (List (Bytes × Bytes))) (n : VName)
    (σ : USys) (s : Schema) : Prop where
  distinct : DistinctViews s
  contract : Contract F s
  has : ∃ v ∈ s.views, v.name = n
  torn : σ.torn n = true → ∀ v ∈ s.views, v.name = n → (C.found (σ.versions n)).isCurrent v.version = false

/-- A view named `n` with the map of version `k`. -/
def fview (F : VName → Nat → Document → Option (List (Bytes × Bytes))) (n : VName) (k : Nat) : View :=
  ⟨n, .lazy, k, F n k, fun _ _ => .unimplemented⟩

theorem shows_congr {v w : View} (hm : v.map = w.map) {es : OMap ViewEntry} {id : Bytes} {d : Option Document} :
    Shows v es id d ↔ Shows w es id d := by
  simp only [Shows, expect, hm]

theorem vinv_congr {v w : View} (hn : v.name = w.name) (hm : v.map = w.map) {t : Trees} : VInv v t ↔ VInv w t := by
  simp only [VInv, ViewOK, Trees.docsOf, hn, shows_congr hm]

/-- A state in which a history starts: documents have their own ids, nothing runs, and if the stored version of the view
is current for some version, then the view is as that version left it.  This covers new databases and whatever older
libraries left behind. -/
structure UStart (C : VersionCodec) (F : VName → Nat → Document → Option (List (Bytes × Bytes))) (n : VName)
    (σ : USys) : Prop where
  own : AllOwn σ.trees
  idle : ∀ m, σ.phase m = .idle
  whole : σ.torn n = false
  view : ∀ k, (C.found (σ.versions n)).isCurrent k = true → VInv (fview F n k) σ.trees
  schema : Allowed C F n σ σ.schema

/-! ## Transactions that do not map the view -/

theorem runOps_elsewhere {s : Schema} (hdv : DistinctViews s) {v : View} (hv : v ∈ s.views) :
    ∀ {ops : List Operation} {t : Trees} {ch : Changes} {t' : Trees} {ch' : Changes} {rs : List OpResult},
      (∀ op ∈ ops, op.collection ≠ v.name.collection) →
    runOps s t ch ops = .ok (t', ch', rs) →
    t'.entries v.name = t.entries v.name ∧ t'.docMap v.name = t.docMap v.name ∧
      t'.invalidated = t.invalidated ∧ ∀ id, (t'.docsOf v).get id = (t.docsOf v).get id := by
  intro ops
  induction ops with
  | nil => intro t ch t' ch' rs _ h; cases h; exact ⟨rfl, rfl, rfl, fun _ => rfl⟩
  | cons op ops ih =>
    intro t ch t' ch' rs hops h
    simp only [runOps] at h
    split at h
    · cases h
    · rename_i t1 r hex
      split at h
      · cases h
      · split at h
        · cases h
        · rename_i hr
          cases h
          obtain ⟨a, b, c, d⟩ := ih (fun o ho => hops o (by simp [ho])) hr
          have hne := hops op (by simp)
          have step : t1.entries v.name = t.entries v.name ∧ t1.docMap v.name = t.docMap v.name ∧
              t1.invalidated = t.invalidated ∧ ∀ id, (t1.docsOf v).get id = (t.docsOf v).get id := by
            rcases execOp_shape hex with rfl | ⟨id, od, del, hid, hu, _⟩
            · exact ⟨rfl, rfl, rfl, fun _ => rfl⟩
            · obtain ⟨e1, e2⟩ := updateEagerViews_other hdv hu hv (.inl (Ne.symm hne))
              obtain ⟨hd, hi, _, _⟩ := updateViewList_spec hu (eager_nodup hdv _ _)
              have hw1 : (t.write op.collection id od).entries = t.entries := by cases od <;> rfl
              have hw2 : (t.write op.collection id od).docMap = t.docMap := by cases od <;> rfl
              have hw3 : (t.write op.collection id od).invalidated = t.invalidated := by cases od <;> rfl
              refine ⟨by rw [e1, hw1], by rw [e2, hw2], by rw [hi, hw3], ?_⟩
              intro i
              rw [Trees.docsOf, hd, write_get, if_neg (fun hc => hne hc.1.symm)]
          refine ⟨a.trans step.1, b.trans step.2.1, c.trans step.2.2.1, fun id => (d id).trans (step.2.2.2 id)⟩

/-- What a transaction does to the trees of a lazy view, or of an eager view of another collection. -/
theorem prepare_inert {s : Schema} (hdv : DistinctViews s) {v : View} (hv : v ∈ s.views) {t t' : Trees}
    {ops : List Operation} {ch : Changes} {rs : List OpResult} (h : prepare s t ops = .ok (t', ch, rs))
    (hl : v.policy.isEager = false ∨ ∀ op ∈ ops, op.collection ≠ v.name.collection) :
    t'.entries v.name = t.entries v.name ∧ t'.docMap v.name = t.docMap v.name ∧
      (∀ id, ((t.invalidated v.name).get id).isSome → ((t'.invalidated v.name).get id).isSome) ∧
      (∀ id, (t'.docsOf v).get id ≠ (t.docsOf v).get id → ((t'.invalidated v.name).get id).isSome) := by
  rcases hl with hl | hl
  · refine prepare_lazy hdv hv ?_ h
    cases hp : v.policy with
    | lazy => rfl
    | eager => rw [hp] at hl; cases hl
    | unique => rw [hp] at hl; cases hl
  · unfold prepare at h
    split at h
    · split at h
      · cases h
      · rename_i t1 ch1 rs1 hr
        cases h
        obtain ⟨a, b, c, d⟩ := runOps_elsewhere hdv hv hl hr
        refine ⟨a, b, ?_, fun id hne => absurd (d id) hne⟩
        intro id hi
        rw [invalidateChanged_get]
        exact .inl (by rw [c]; exact hi)
    · cases h

theorem vinv_inert {v : View} {t t' : Trees} (he : t'.entries v.name = t.entries v.name)
    (hd : t'.docMap v.name = t.docMap v.name)
    (hm : ∀ id, ((t.invalidated v.name).get id).isSome → ((t'.invalidated v.name).get id).isSome)
    (hc : ∀ id, (t'.docsOf v).get id ≠ (t.docsOf v).get id → ((t'.invalidated v.name).get id).isSome)
    (hi : VInv v t) : VInv v t' := by
  refine ⟨⟨by rw [he]; exact hi.1.1, by rw [he, hd]; exact hi.1.2⟩, ?_⟩
  intro id hn
  have h1 : (t.invalidated v.name).get id = none := by
    rw [← not_isSome_none] at hn ⊢
    exact fun h => hn (hm id h)
  have h2 : (t'.docsOf v).get id = (t.docsOf v).get id := by
    refine Classical.byContradiction fun hne => ?_
    have := hc id hne
    rw [hn] at this
    cases this
  rw [he, h2]
  exact hi.2 id h1

theorem prepare_own {s : Schema} (hdv : DistinctViews s) {t t' : Trees} {ops : List Operation} {ch : Changes}
    {rs : List OpResult} (h : prepare s t ops = .ok (t', ch, rs)) (ho : AllOwn t) : AllOwn t' := by
  unfold prepare at h
  split at h
  · split at h
    · cases h
    · rename_i hr
      cases h
      have ho' := runOps_own hdv hr ho
      exact ho'
  · cases h

/-! ## The invariant -/

/-- What holds of the scan of the view. -/
def PhaseInv (C : VersionCodec) (n : VName) (k : Nat) (σ : USys) : Prop :=
  match σ.phase n with
  | .idle => σ.torn n = true → (C.found (σ.versions n)).isCurrent k = false
  | .outdated => (C.found (σ.versions n)).isCurrent k = false
  | .read ids => (C.found (σ.versions n)).isCurrent k = false ∧
      ∀ id, ((σ.trees.docs n.collection).get id).isSome → id ∈ ids
  | .noMarks ids => (C.found (σ.versions n)).isCurrent k = false ∧ σ.torn n = true ∧
      ∀ id, ((σ.trees.docs n.collection).get id).isSome → id ∈ ids ∨ ((σ.trees.invalidated n).get id).isSome
  | .noEntries ids => (C.found (σ.versions n)).isCurrent k = false ∧ σ.torn n = true ∧
      (∀ id, ((σ.trees.docs n.collection).get id).isSome → id ∈ ids ∨ ((σ.trees.invalidated n).get id).isSome) ∧
      σ.trees.entries n = .empty
  | .wiped ids => (C.found (σ.versions n)).isCurrent k = false ∧ σ.torn n = true ∧
      (∀ id, ((σ.trees.docs n.collection).get id).isSome → id ∈ ids ∨ ((σ.trees.invalidated n).get id).isSome) ∧
      σ.trees.entries n = .empty ∧ σ.trees.docMap n = .empty
  | .stored => (C.found (σ.versions n)).isCurrent k = true ∧ σ.torn n = false
  | .checked => (C.found (σ.versions n)).isCurrent k = true ∧ σ.torn n = false

structure UInv (C : VersionCodec) (F : VName → Nat → Document → Option (List (Bytes × Bytes))) (n : VName)
    (σ : USys) : Prop where
  own : AllOwn σ.trees
  distinct : DistinctViews σ.schema
  contract : Contract F σ.schema
  has : ∃ v ∈ σ.schema.views, v.name = n
  view : σ.torn n = false → ∀ k, (C.found (σ.versions n)).isCurrent k = true → VInv (fview F n k) σ.trees
  phase : ∀ v ∈ σ.schema.views, v.name = n → PhaseInv C n v.version σ

theorem empty_view (F : VName → Nat → Document → Option (List (Bytes × Bytes))) (n : VName) (k : Nat) {t : Trees}
    (he : t.entries n = .empty) (hd : t.docMap n = .empty)
    (hm : ∀ id, ((t.docs n.collection).get id).isSome → ((t.invalidated n).get id).isSome) : VInv (fview F n k) t := by
  have hf : ∀ key id, found (t.entries n) key id = none := by
    intro key id; rw [he]; rfl
  refine ⟨⟨?_, ?_⟩, ?_⟩
  · show ViewWF (t.entries n)
    rw [he]
    intro key e h; cases h
  · intro id key
    show key ∈ ((t.docMap n).get id).getD [] ↔ (found (t.entries n) key id).isSome
    rw [hf, hd]
    constructor
    · intro h; cases h
    · intro h; cases h
  · intro id hn
    have hnone : (t.docs n.collection).get id = none := by
      rw [← not_isSome_none]
      intro hs
      have h1 := hm id hs
      have hn' : (t.invalidated n).get id = none := hn
      rw [hn'] at h1
      cases h1
    show Shows _ _ id ((t.docs n.collection).get id)
    rw [hnone]
    refine ⟨fun x hx => (by cases hx), fun key => ?_⟩
    show found (t.entries n) key id = _
    rw [hf]; rfl

/-- The phase of the view `n` in a state in which only other views' phases changed. -/
theorem PhaseInv.congr {C : VersionCodec} {n : VName} {k : Nat} {σ σ' : USys} (h : PhaseInv C n k σ)
    (h1 : σ'.phase n = σ.phase n) (h2 : σ'.versions n = σ.versions n) (h3 : σ'.torn n = σ.torn n)
    (h4 : σ'.trees.entries n = σ.trees.entries n) (h5 : σ'.trees.docMap n = σ.trees.docMap n)
    (h6 : σ'.trees.invalidated n = σ.trees.invalidated n) (h7 : σ'.trees.docs = σ.trees.docs) : PhaseInv C n k σ' := by
  unfold PhaseInv at h ⊢
  rw [h1, h2, h3, h4, h5, h6, h7]
  exact h

theorem VInv.congrTrees {v : View} {t t' : Trees} (h : VInv v t) (h4 : t'.entries v.name = t.entries v.name)
    (h5 : t'.docMap v.name = t.docMap v.name) (h6 : t'.invalidated v.name = t.invalidated v.name)
    (h7 : t'.docs = t.docs) : VInv v t' := by
  unfold VInv ViewOK Trees.docsOf at h ⊢
  rw [h4, h5, h6, h7]
  exact h

/-- A step on another view. -/
theorem UInv.other {C : VersionCodec} {F} {n : VName} {σ σ' : USys} (h : UInv C F n σ) (hs : σ'.schema = σ.schema)
    (h1 : σ'.phase n = σ.phase n) (h2 : σ'.versions n = σ.versions n) (h3 : σ'.torn n = σ.torn n)
    (h4 : σ'.trees.entries n = σ.trees.entries n) (h5 : σ'.trees.docMap n = σ.trees.docMap n)
    (h6 : σ'.trees.invalidated n = σ.trees.invalidated n) (h7 : σ'.trees.docs = σ.trees.docs) : UInv C F n σ' where
  own := by intro c; rw [h7]; exact h.own c
  distinct := by rw [hs]; exact h.distinct
  contract := by rw [hs]; exact h.contract
  has := by rw [hs]; exact h.has
  view := by
    intro ht k hk
    rw [h3] at ht
    rw [h2] at hk
    exact (h.view ht k hk).congrTrees h4 h5 h6 h7
  phase := by
    rw [hs]
    intro v hv hn
    exact (h.phase v hv hn).congr h1 h2 h3 h4 h5 h6 h7

theorem uinv_step {C : VersionCodec} (hC : C.Lawful) {F} {n : VName} {σ σ' : USys}
    (hs : UStep C True (Allowed C F n) σ σ') (h : UInv C F n σ) : UInv C F n σ' := by
  cases hs with
  | @current v hv hph hc =>
    by_cases hn : v.name = n
    · subst hn
      refine ⟨h.own, h.distinct, h.contract, h.has, h.view, ?_⟩
      intro w hw hwn
      have hwv := distinct_inj h.distinct hw hv hwn
      subst hwv
      have hp := h.phase w hw rfl
      unfold PhaseInv
      simp only [upd_self]
      refine ⟨hc, ?_⟩
      rcases hph with hph | hph
      · simp only [PhaseInv, hph] at hp
        cases ht : σ.torn w.name with
        | false => rfl
        | true => rw [hp ht] at hc; cases hc
      · simp only [PhaseInv, hph] at hp
        exact hp.2
    · exact h.other rfl (upd_ne _ _ (Ne.symm hn)) rfl rfl rfl rfl rfl rfl
  | @outdated v hv hph hc =>
    by_cases hn : v.name = n
    · subst hn
      refine ⟨h.own, h.distinct, h.contract, h.has, h.view, ?_⟩
      intro w hw hwn
      have hwv := distinct_inj h.distinct hw hv hwn
      subst hwv
      unfold PhaseInv
      simp only [upd_self]
      exact hc
    · exact h.other rfl (upd_ne _ _ (Ne.symm hn)) rfl rfl rfl rfl rfl rfl
  | @readIds v hv hph =>
    by_cases hn : v.name = n
    · subst hn
      refine ⟨h.own, h.distinct, h.contract, h.has, h.view, ?_⟩
      intro w hw hwn
      have hwv := distinct_inj h.distinct hw hv hwn
      subst hwv
      have hp := h.phase w hw rfl
      simp only [PhaseInv, hph] at hp
      unfold PhaseInv
      simp only [upd_self]
      exact ⟨hp, fun id hid => OMap.mem_keys_iff.mpr hid⟩
    · exact h.other rfl (upd_ne _ _ (Ne.symm hn)) rfl rfl rfl rfl rfl rfl
  | @deleteMarks v ids hv hph =>
    by_cases hn : v.name = n
    · subst hn
      refine ⟨h.own, h.distinct, h.contract, h.has, ?_, ?_⟩
      · intro ht
        simp only [upd_self] at ht
        cases ht
      · intro w hw hwn
        have hwv := distinct_inj h.distinct hw hv hwn
        subst hwv
        have hp := h.phase w hw rfl
        simp only [PhaseInv, hph] at hp
        unfold PhaseInv
        simp only [upd_self]
        exact ⟨hp.1, trivial, fun id hid => .inl (hp.2 id hid)⟩
    · exact h.other rfl (upd_ne _ _ (Ne.symm hn)) rfl (upd_ne _ _ (Ne.symm hn)) rfl rfl (upd_ne _ _ (Ne.symm hn)) rfl
  | @deleteEntries v ids hv hph =>
    by_cases hn : v.name = n
    · subst hn
      obtain ⟨w0, hw0, hwn0⟩ := h.has
      have hp0 := h.phase v hv rfl
      simp only [PhaseInv, hph] at hp0
      refine ⟨h.own, h.distinct, h.contract, h.has, ?_, ?_⟩
      · intro ht
        have ht' : σ.torn v.name = false := ht
        rw [hp0.2.1] at ht'
        cases ht'
      · intro w hw hwn
        have hwv := distinct_inj h.distinct hw hv hwn
        subst hwv
        unfold PhaseInv
        simp only [upd_self]
        exact ⟨hp0.1, hp0.2.1, hp0.2.2, trivial⟩
    · exact h.other rfl (upd_ne _ _ (Ne.symm hn)) rfl rfl (upd_ne _ _ (Ne.symm hn)) rfl rfl rfl
  | @deleteMap v ids hv hph =>
    by_cases hn : v.name = n
    · subst hn
      have hp0 := h.phase v hv rfl
      simp only [PhaseInv, hph] at hp0
      refine ⟨h.own, h.distinct, h.contract, h.has, ?_, ?_⟩
      · intro ht
        have ht' : σ.torn v.name = false := ht
        rw [hp0.2.1] at ht'
        cases ht'
      · intro w hw hwn
        have hwv := distinct_inj h.distinct hw hv hwn
        subst hwv
        unfold PhaseInv
        simp only [upd_self]
        exact ⟨hp0.1, hp0.2.1, hp0.2.2.1, hp0.2.2.2, trivial⟩
    · exact h.other rfl (upd_ne _ _ (Ne.symm hn)) rfl rfl rfl (upd_ne _ _ (Ne.symm hn)) rfl rfl
  | @store v ids hv hph =>
    by_cases hn : v.name = n
    · subst hn
      have hp0 := h.phase v hv rfl
      simp only [PhaseInv, hph] at hp0
      refine ⟨h.own, h.distinct, h.contract, h.has, ?_, ?_⟩
      · intro _ k _
        refine empty_view F v.name k hp0.2.2.2.1 hp0.2.2.2.2 ?_
        intro id hid
        show (((upd σ.trees.invalidated v.name _) v.name).get id).isSome
        rw [upd_self, markAll_get]
        exact hp0.2.2.1 id hid
      · intro w hw hwn
        have hwv := distinct_inj h.distinct hw hv hwn
        subst hwv
        unfold PhaseInv
        simp only [upd_self]
        exact ⟨isCurrent_written hC _, trivial⟩
    · exact h.other rfl (upd_ne _ _ (Ne.symm hn)) (upd_ne _ _ (Ne.symm hn)) (upd_ne _ _ (Ne.symm hn)) rfl rfl
        (upd_ne _ _ (Ne.symm hn)) rfl
  | @complete v hv hph =>
    by_cases hn : v.name = n
    · subst hn
      have hp0 := h.phase v hv rfl
      simp only [PhaseInv, hph] at hp0
      refine ⟨h.own, h.distinct, h.contract, h.has, h.view, ?_⟩
      intro w hw hwn
      have hwv := distinct_inj h.distinct hw hv hwn
      subst hwv
      unfold PhaseInv
      simp only [upd_self]
      exact hp0
    · exact h.other rfl (upd_ne _ _ (Ne.symm hn)) rfl rfl rfl rfl rfl rfl
  | @transaction ops t ch rs hp hg hq =>
    obtain ⟨v, hv, hn⟩ := h.has
    subst hn
    have hown := prepare_own h.distinct hp h.own
    have hph := h.phase v hv rfl
    by_cases hin : v.policy.isEager = false ∨ ∀ op ∈ ops, op.collection ≠ v.name.collection
    · obtain ⟨a, b, c, d⟩ := prepare_inert h.distinct hv hp hin
      refine ⟨hown, h.distinct, h.contract, h.has, ?_, ?_⟩
      · intro ht k hk
        exact vinv_inert (v := fview F v.name k) a b c d (h.view ht k hk)
      · intro w hw hwn
        have hwv := distinct_inj h.distinct hw hv hwn
        subst hwv
        have hdoc : ∀ (P : Bytes → Prop) (id : Bytes),
            (∀ id, ((σ.trees.docs w.name.collection).get id).isSome → P id ∨ ((σ.trees.invalidated w.name).get id).isSome) →
            ((t.docs w.name.collection).get id).isSome → P id ∨ ((t.invalidated w.name).get id).isSome := by
          intro P id hall hid
          by_cases he : (t.docsOf w).get id = (σ.trees.docsOf w).get id
          · have h1 : ((σ.trees.docs w.name.collection).get id).isSome := by
              have : (t.docs w.name.collection).get id = (σ.trees.docs w.name.collection).get id := he
              rw [← this]; exact hid
            rcases hall id h1 with h2 | h2
            · exact .inl h2
            · exact .inr (c id h2)
          · exact .inr (d id he)
        unfold PhaseInv at hph ⊢
        cases hpp : σ.phase w.name with
        | idle => simp only [hpp] at hph ⊢; exact hph
        | outdated => simp only [hpp] at hph ⊢; exact hph
        | stored => simp only [hpp] at hph ⊢; exact hph
        | checked => simp only [hpp] at hph ⊢; exact hph
        | read ids => exact absurd hpp (hq trivial w hv ids)
        | noMarks ids =>
          simp only [hpp] at hph ⊢
          exact ⟨hph.1, hph.2.1, fun id hid => hdoc _ id hph.2.2 hid⟩
        | noEntries ids =>
          simp only [hpp] at hph ⊢
          exact ⟨hph.1, hph.2.1, fun id hid => hdoc _ id hph.2.2.1 hid, a.trans hph.2.2.2⟩
        | wiped ids =>
          simp only [hpp] at hph ⊢
          exact ⟨hph.1, hph.2.1, fun id hid => hdoc _ id hph.2.2.1 hid, a.trans hph.2.2.2.1, b.trans hph.2.2.2.2⟩
    · have hpol : v.policy.isEager = true := by
        cases hpe : v.policy.isEager with
        | true => rfl
        | false => exact absurd (.inl hpe) hin
      have hex : ∃ op ∈ ops, op.collection = v.name.collection := by
        refine Classical.byContradiction fun hno => hin (.inr ?_)
        intro op hop hc
        exact hno ⟨op, hop, hc⟩
      have hck := hg v hv hpol hex
      simp only [PhaseInv, hck] at hph
      have hmap := h.contract v hv
      have hvi : VInv v σ.trees := (vinv_congr (v := v) (w := fview F v.name v.version) rfl hmap).mpr (h.view hph.2 _ hph.1)
      have hvi' := (prepare_view h.distinct hv hp h.own hvi).2.1
      refine ⟨hown, h.distinct, h.contract, h.has, ?_, ?_⟩
      · intro ht k hk
        have hkv : k = v.version := isCurrent_unique hk hph.1
        subst hkv
        exact (vinv_congr (v := v) (w := fview F v.name v.version) rfl hmap).mp hvi'
      · intro w hw hwn
        have hwv := distinct_inj h.distinct hw hv hwn
        subst hwv
        unfold PhaseInv
        simp only [hck]
        exact hph
  | @map w ids bs es dm hw hph hnd hb hm =>
    by_cases hn : w.name = n
    · subst hn
      have hcur : (C.found (σ.versions w.name)).isCurrent w.version = true ∧ σ.torn w.name = false := by
        have hp := h.phase w hw rfl
        cases hpp : σ.phase w.name <;> rw [hpp] at hph <;> simp only [UPhase.mapped] at hph <;>
          simp only [PhaseInv, hpp] at hp
        · exact hp
        · exact hp
      have hmap := h.contract w hw
      have hvi : VInv w σ.trees := (vinv_congr (v := w) (w := fview F w.name w.version) rfl hmap).mpr (h.view hcur.2 _ hcur.1)
      have hvi' := (chunk_view (v := w) (w := w) (fun _ => rfl) h.own hvi hnd hb hm).1
      refine ⟨h.own, h.distinct, h.contract, h.has, ?_, ?_⟩
      · intro ht k hk
        have hkv : k = w.version := isCurrent_unique hk hcur.1
        subst hkv
        exact (vinv_congr (v := w) (w := fview F w.name w.version) rfl hmap).mp hvi'
      · intro u hu hun
        have huv := distinct_inj h.distinct hu hw hun
        subst huv
        have hp := h.phase u hu rfl
        unfold PhaseInv at hp ⊢
        cases hpp : σ.phase u.name <;> rw [hpp] at hph <;> simp only [UPhase.mapped] at hph <;>
          simp only [hpp] at hp ⊢ <;> exact hp
    · have hne : n ≠ w.name := Ne.symm hn
      exact h.other rfl rfl rfl rfl (upd_ne _ _ hne) (upd_ne _ _ hne) (upd_ne _ _ hne) rfl
  | @restart s hs =>
    refine ⟨h.own, hs.distinct, hs.contract, hs.has, h.view, ?_⟩
    intro v hv hn
    unfold PhaseInv
    exact fun ht => hs.torn ht v hv hn

theorem uinv_start {C : VersionCodec} {F} {n : VName} {σ : USys} (h : UStart C F n σ) : UInv C F n σ := by
  refine ⟨h.own, h.schema.distinct, h.schema.contract, h.schema.has, fun _ => h.view, ?_⟩
  intro v hv hn
  unfold PhaseInv
  rw [h.idle n]
  intro ht
  rw [h.whole] at ht
  cases ht

theorem uinv_exec {C : VersionCodec} (hC : C.Lawful) {F} {n : VName} {σ₀ σ : USys} (hst : UStart C F n σ₀)
    (he : UExec C True (Allowed C F n) σ₀ σ) : UInv C F n σ := by
  induction he with
  | refl => exact uinv_start hst
  | step _ hs ih => exact uinv_step hC hs ih

/-! ## C80 -/

/-- Whatever programs used the database, and wherever they ended, once the running program has checked the view, the
view shows of every document that is not marked for mapping what the running program's map makes of it, and when none is
marked it holds exactly the mappings of all documents.  Partial: the programs are as in `Allowed`, and no transaction
commits between the two steps of a scan that C32 is about. -/
theorem C80_checked_view_partial (C : VersionCodec) (hC : C.Lawful)
    (F : VName → Nat → Document → Option (List (Bytes × Bytes))) (n : VName) (σ₀ σ : USys) (hst : UStart C F n σ₀)
    (he : UExec C True (Allowed C F n) σ₀ σ) (v : View) (hv : v ∈ σ.schema.views) (hn : v.name = n)
    (hck : σ.phase n = .checked) :
    (∀ id, (σ.trees.invalidated n).get id = none → Shows v (σ.trees.entries n) id ((σ.trees.docsOf v).get id)) ∧
    ((∀ id, (σ.trees.invalidated n).get id = none) → ∀ key m,
      m ∈ mappingsOf ((σ.trees.entries n).get key) ↔ ∃ id d ms, (σ.trees.docsOf v).get id = some d ∧
        v.map d = some ms ∧ m.source = d.header ∧ lastValue ms key = some m.value) := by
  have h := uinv_exec hC hst he
  subst hn
  have hp := h.phase v hv rfl
  simp only [PhaseInv, hck] at hp
  have hvi : VInv v σ.trees :=
    (vinv_congr (v := v) (w := fview F v.name v.version) rfl (h.contract v hv)).mpr (h.view hp.2 _ hp.1)
  exact ⟨hvi.2, fun hno key m => shows_all_mem hvi.1.1 (fun id => hvi.2 id (hno id)) key m⟩

/-- The stored version is then that of the running program. -/
theorem C80_checked_version_partial (C : VersionCodec) (hC : C.Lawful)
    (F : VName → Nat → Document → Option (List (Bytes × Bytes))) (n : VName) (σ₀ σ : USys) (hst : UStart C F n σ₀)
    (he : UExec C True (Allowed C F n) σ₀ σ) (v : View) (hv : v ∈ σ.schema.views) (hn : v.name = n)
    (hck : σ.phase n = .checked) : (C.found (σ.versions n)).isCurrent v.version = true := by
  have h := uinv_exec hC hst he
  subst hn
  have hp := h.phase v hv rfl
  simp only [PhaseInv, hck] at hp
  exact hp.1

/-! ## A case that meets the hypotheses, and histories outside them -/

section Example

/-- A codec that satisfies what is assumed. -/
def exVC : VersionCodec where
  enc v := List.replicate v.internal 1 ++ List.replicate (v.schema + 1) 0
  dec b := .ok ⟨(b.takeWhile (· == 1)).length, (b.dropWhile (· == 1)).length - 1⟩

theorem exVC_lawful : exVC.Lawful := by
  intro v
  simp [exVC, List.takeWhile_append, List.dropWhile_append, List.takeWhile_replicate, List.dropWhile_replicate]

/-- The next version of `exLazy`, with another map. -/
@[reducible] def exLazy1 : View :=
  ⟨exVName, .lazy, 1, fun d => some [(d.contents, [2])], fun l _ => .ok [l.length.toUInt8]⟩

/-- The maps of the versions. -/
@[reducible] def exF : VName → Nat → Document → Option (List (Bytes × Bytes)) := fun _ k =>
  if k = 0 then exLazy.map else exLazy1.map

/-- A new database. -/
@[reducible] def exU0 (s : Schema) : USys := ⟨.empty, fun _ => none, s, fun _ => .idle, fun _ => false⟩

theorem exU_start : UStart exVC exF exVName (exU0 (exWith exLazy)) where
  own := by intro c id d h; cases h
  idle := fun _ => rfl
  whole := rfl
  view := by intro k hk; simp [exU0, VersionCodec.found, ViewVersion.isCurrent] at hk
  schema :=
    { distinct := exDistinct _
      contract := by intro v hv; simp only [exWith, List.mem_singleton] at hv; subst hv; rfl
      has := ⟨exLazy, by simp [exWith], rfl⟩
      torn := by intro h; cases h }

/-- Any program. -/
def anyNext : USys → Schema → Prop := fun _ _ => True

theorem UExec.trans {C : VersionCodec} {q : Prop} {next : USys → Schema → Prop} {a b c : USys}
    (h1 : UExec C q next a b) (h2 : UExec C q next b c) : UExec C q next a c := by
  induction h2 with
  | refl => exact h1
  | step _ hs ih => exact .step ih hs

/-- A whole scan. -/
theorem scan_exec {C : VersionCodec} {q : Prop} {next : USys → Schema → Prop} {σ : USys} {v : View}
    (hv : v ∈ σ.schema.views) (hi : σ.phase v.name = .idle)
    (ho : (C.found (σ.versions v.name)).isCurrent v.version = false) :
    ∃ σ', UExec C q next σ σ' ∧ σ'.schema = σ.schema ∧ σ'.phase v.name = .checked ∧
      σ'.versions = upd σ.versions v.name (some (C.enc (.currentFor v.version))) ∧ σ'.torn v.name = false ∧
      σ'.trees = { σ.trees with
        entries := upd σ.trees.entries v.name .empty
        docMap := upd σ.trees.docMap v.name .empty
        invalidated := upd (upd σ.trees.invalidated v.name .empty) v.name (markAll .empty (σ.trees.docsOf v).keys) } := by
  refine ⟨_, .step (.step (.step (.step (.step (.step (.step (.refl _) (.outdated hv (.inl hi) ho))
    (.readIds (v := v) hv (upd_self ..))) (.deleteMarks (v := v) hv (upd_self ..)))
    (.deleteEntries (v := v) hv (upd_self ..))) (.deleteMap (v := v) hv (upd_self ..)))
    (.store (v := v) hv (upd_self ..))) (.complete (v := v) hv (upd_self ..)), rfl, upd_self .., rfl, upd_self .., ?_⟩
  simp only [upd_self]

theorem UExec.scan {C : VersionCodec} {q : Prop} {next : USys → Schema → Prop} {a σ : USys} (h : UExec C q next a σ)
    {v : View} (hv : v ∈ σ.schema.views) (hi : σ.phase v.name = .idle)
    (ho : (C.found (σ.versions v.name)).isCurrent v.version = false) :
    ∃ σ', UExec C q next a σ' ∧ σ'.schema = σ.schema ∧ σ'.phase v.name = .checked ∧
      σ'.versions = upd σ.versions v.name (some (C.enc (.currentFor v.version))) ∧ σ'.torn v.name = false ∧
      σ'.trees = { σ.trees with
        entries := upd σ.trees.entries v.name .empty
        docMap := upd σ.trees.docMap v.name .empty
        invalidated := upd (upd σ.trees.invalidated v.name .empty) v.name (markAll .empty (σ.trees.docsOf v).keys) } := by
  obtain ⟨σ', he, r⟩ := scan_exec (q := q) (next := next) hv hi ho
  exact ⟨σ', h.trans he, r⟩

/-- An insertion by a program whose only view is lazy, and its mapping. -/
@[reducible] def exInsert80 : List Operation := [⟨exC, .insert (some [7]) [5]⟩]

/-- **C80 is violated** by an upgrade that is interrupted and taken back: version 0 is checked and has mapped a document;
the scan of version 1 deletes marks and entries, and the program ends; the program with version 0 finds the stored
version current, and the document is neither marked nor in the view. -/
theorem C80_violated_interrupted_upgrade :
    ∃ (C : VersionCodec) (s₀ s₁ : Schema) (v : View) (σ : USys), C.Lawful ∧
      UExec C True (fun _ s => s = s₀ ∨ s = s₁) ⟨.empty, fun _ => none, s₀, fun _ => .idle, fun _ => false⟩ σ ∧
      DistinctViews s₀ ∧ DistinctViews s₁ ∧ Contract exF s₀ ∧ Contract exF s₁ ∧
      σ.schema = s₀ ∧ v ∈ s₀.views ∧ (∃ w ∈ s₁.views, w.name = v.name) ∧ σ.phase v.name = .checked ∧
      (∀ id, (σ.trees.invalidated v.name).get id = none) ∧
      ∃ id d key value, (σ.trees.docsOf v).get id = some d ∧ Emits v d key value ∧
        (σ.trees.entries v.name).get key = none := by
  obtain ⟨⟨tr, ve, sc, ph, to⟩, he, hsc, hph, hve, hto, htr⟩ :=
    scan_exec (C := exVC) (q := True) (next := fun _ s => s = exWith exLazy ∨ s = exWith exLazy1)
      (σ := exU0 (exWith exLazy)) (v := exLazy) (by simp [exWith]) rfl rfl
  simp only at hsc hve htr
  subst hsc hve htr
  have e1 := he.step (.transaction (ops := exInsert80) rfl (by
    intro v hv hp
    simp only [exU0, exWith, List.mem_singleton] at hv
    subst hv
    cases hp) (by
    intro _ v hv ids
    simp only [exU0, exWith, List.mem_singleton] at hv
    subst hv
    rw [hph]
    exact fun h => by cases h))
  have e2 := e1.step (.map (v := exLazy) (ids := [[7]]) (bs := [[[7]]]) (by simp [exWith, exU0]) (by rw [hph]; trivial)
    (by simp) (.refl _) rfl)
  have e3 := e2.step (.restart (.inr rfl))
  have e4 := e3.step (.outdated (v := exLazy1) (by simp [exWith]) (.inl rfl) rfl)
  have e5 := e4.step (.readIds (v := exLazy1) (by simp [exWith]) rfl)
  have e6 := e5.step (.deleteMarks (v := exLazy1) (by simp [exWith]) rfl)
  have e7 := e6.step (.deleteEntries (v := exLazy1) (by simp [exWith]) rfl)
  have e8 := e7.step (.restart (.inl rfl))
  have e9 := e8.step (.current (v := exLazy) (by simp [exWith]) (.inl rfl) rfl)
  refine ⟨exVC, exWith exLazy, exWith exLazy1, exLazy, _, exVC_lawful, e9, exDistinct _, exDistinct _, ?_, ?_, rfl,
    by simp [exWith], ⟨exLazy1, by simp [exWith], rfl⟩, by rfl, ?_,
    [7], ⟨⟨[7], ⟨0, [5]⟩⟩, [5]⟩, [5], [1], rfl, ⟨_, rfl, by simp⟩, rfl⟩
  · intro v hv; simp only [exWith, List.mem_singleton] at hv; subst hv; rfl
  · intro v hv; simp only [exWith, List.mem_singleton] at hv; subst hv; rfl
  · intro id; rfl

/-- **C80 is violated** by a program that leaves the view out: what it inserts is not marked, and the view counts as
current when a later program has it again with the same version. -/
theorem C80_violated_removed_view :
    ∃ (C : VersionCodec) (s₀ s₁ : Schema) (v : View) (σ : USys), C.Lawful ∧
      UExec C True (fun _ s => s = s₀ ∨ s = s₁) ⟨.empty, fun _ => none, s₀, fun _ => .idle, fun _ => false⟩ σ ∧
      DistinctViews s₀ ∧ s₁ = { s₀ with views := [] } ∧ Contract exF s₀ ∧
      σ.schema = s₀ ∧ v ∈ s₀.views ∧ σ.torn v.name = false ∧ σ.phase v.name = .checked ∧
      (∀ id, (σ.trees.invalidated v.name).get id = none) ∧
      ∃ id d key value, (σ.trees.docsOf v).get id = some d ∧ Emits v d key value ∧
        (σ.trees.entries v.name).get key = none := by
  obtain ⟨⟨tr, ve, sc, ph, to⟩, he, hsc, hph, hve, hto, htr⟩ :=
    scan_exec (C := exVC) (q := True) (next := fun _ s => s = exWith exLazy ∨ s = exSchema)
      (σ := exU0 (exWith exLazy)) (v := exLazy) (by simp [exWith]) rfl rfl
  simp only at hsc hve htr
  subst hsc hve htr
  have e1 := he.step (.restart (.inr rfl))
  have e2 := e1.step (.transaction (ops := exInsert80) rfl (by intro v hv; cases hv) (by intro _ v hv; cases hv))
  have e3 := e2.step (.restart (.inl rfl))
  have e4 := e3.step (.current (v := exLazy) (by simp [exWith]) (.inl rfl) rfl)
  refine ⟨exVC, exWith exLazy, exSchema, exLazy, _, exVC_lawful, e4, exDistinct _, rfl, ?_, rfl,
    by simp [exWith], hto, by rfl, ?_, [7], ⟨⟨[7], ⟨0, [5]⟩⟩, [5]⟩, [5], [1], rfl, ⟨_, rfl, by simp⟩, rfl⟩
  · intro v hv; simp only [exWith, List.mem_singleton] at hv; subst hv; rfl
  · intro id; rfl

/-- The hypotheses are met by a database that version 0 filled and version 1 took over. -/
example : ∃ σ : USys, UStart exVC exF exVName (exU0 (exWith exLazy)) ∧
    UExec exVC True (Allowed exVC exF exVName) (exU0 (exWith exLazy)) σ ∧ σ.schema = exWith exLazy1 ∧
    σ.phase exVName = .checked ∧ (∀ id, (σ.trees.invalidated exVName).get id = none) ∧
    ∃ e, (σ.trees.entries exVName).get [5] = some e ∧ e.mappings = [⟨⟨[7], ⟨0, [5]⟩⟩, [2]⟩] := by
  obtain ⟨⟨tr, ve, sc, ph, to⟩, he, hsc, hph, hve, hto, htr⟩ :=
    scan_exec (C := exVC) (q := True) (next := Allowed exVC exF exVName)
      (σ := exU0 (exWith exLazy)) (v := exLazy) (by simp [exWith]) rfl rfl
  simp only at hsc hve htr hto
  subst hsc hve htr
  have e1 := he.step (.transaction (ops := exInsert80) rfl (by
    intro v hv hp
    simp only [exU0, exWith, List.mem_singleton] at hv
    subst hv
    cases hp) (by
    intro _ v hv ids
    simp only [exU0, exWith, List.mem_singleton] at hv
    subst hv
    rw [hph]
    exact fun h => by cases h))
  have e2 := e1.step (.map (v := exLazy) (ids := [[7]]) (bs := [[[7]]]) (by simp [exWith, exU0]) (by rw [hph]; trivial)
    (by simp) (.refl _) rfl)
  have e3 := e2.step (.restart (s := exWith exLazy1)
    { distinct := exDistinct _
      contract := by intro v hv; simp only [exWith, List.mem_singleton] at hv; subst hv; rfl
      has := ⟨exLazy1, by simp [exWith], rfl⟩
      torn := by
        intro h
        have h' : to exVName = true := h
        have hto' : to exVName = false := hto
        rw [hto'] at h'
        cases h' })
  obtain ⟨⟨tr', ve', sc', ph', to'⟩, he', hsc', hph', hve', hto', htr'⟩ :=
    e3.scan (v := exLazy1) (by simp [exWith]) rfl rfl
  simp only at hsc' hve' htr'
  subst hsc' hve' htr'
  have e5 := he'.step (.map (v := exLazy1) (ids := [[7]]) (bs := [[[7]]]) (by simp [exWith]) (by rw [hph']; trivial)
    (by simp) (.refl _) rfl)
  exact ⟨_, exU_start, e5, rfl, hph', fun id => by rfl, _, rfl, rfl⟩

end Example

end Bonsai.Store
