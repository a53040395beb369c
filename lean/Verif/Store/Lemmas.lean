import Verif.Store.Spec

/-!
# Lemmas: the document trees refine the plain map of `Spec.lean`
-/
set_option linter.unusedSimpArgs false
set_option linter.unusedVariables false

namespace Bonsai.Store
open Bonsai Bonsai.Names

/-! ## Eager views neither touch documents nor raise other errors than their own -/

theorem addMappings_err {v : View} : ∀ {ns ms e}, addMappings v ms ns = .error e → ViewErr e := by
  intro ns
  induction ns with
  | nil => intro ms e h; simp [addMappings] at h
  | cons n ns ih =>
    intro ms e h
    rw [addMappings] at h
    split at h
    · cases h; trivial
    · exact ih h

theorem reduceEntry_err {v : View} {k r e x} (h : reduceEntry v k r e = .error x) : ViewErr x := by
  unfold reduceEntry at h
  split at h
  · split at h <;> cases h
    trivial
  · cases h

theorem compareSwap_err {v : View} {r k old clean new x}
    (h : compareSwap v r k old clean new = .error x) : ViewErr x := by
  unfold compareSwap at h
  simp only at h
  split at h
  · split at h
    · rename_i e he; cases h; exact addMappings_err he
    · split at h
      · cases h
      · split at h
        · rename_i he; cases h; exact reduceEntry_err he
        · cases h
  · split at h
    · cases h
    · split at h
      · rename_i he; cases h; exact reduceEntry_err he
      · split at h
        · rename_i e he; cases h; exact addMappings_err he
        · split at h
          · cases h
          · split at h
            · rename_i he; cases h; exact reduceEntry_err he
            · cases h

theorem updateEntries_err {v : View} {cl nw} : ∀ {ks r es x},
    updateEntries v cl nw r es ks = .error x → ViewErr x := by
  intro ks
  induction ks with
  | nil => intro r es x h; simp [updateEntries] at h
  | cons k ks ih =>
    intro r es x h
    rw [updateEntries] at h
    split at h
    · rename_i he; cases h; exact compareSwap_err he
    · exact ih h
    · exact ih h

theorem mapBatch_err {v : View} {docs o st x} (h : mapBatch v docs o st = .error x) : ViewErr x := by
  unfold mapBatch at h
  split at h
  · cases h; trivial
  · split at h
    · rename_i he; cases h; exact updateEntries_err he
    · cases h

theorem mapBatches_err {v : View} {docs} : ∀ {bs st x},
    mapBatches v docs bs st = .error x → ViewErr x := by
  intro bs
  induction bs with
  | nil => intro st x h; simp [mapBatches] at h
  | cons b bs ih =>
    intro st x h
    rw [mapBatches] at h
    split at h
    · rename_i he; cases h; exact mapBatch_err he
    · exact ih h

theorem updateEagerView_err {v : View} {id t x} (h : updateEagerView v id t = .error x) :
    ViewErr x := by
  unfold updateEagerView at h
  split at h
  · rename_i he; cases h; exact mapBatches_err he
  · cases h

theorem updateEagerView_docs {v : View} {id t t'} (h : updateEagerView v id t = .ok t') :
    t'.docs = t.docs ∧ t'.invalidated = t.invalidated := by
  unfold updateEagerView at h
  split at h
  · cases h
  · cases h; exact ⟨rfl, rfl⟩

theorem updateViewList_err {id} : ∀ {vs t x}, updateViewList vs id t = .error x → ViewErr x := by
  intro vs
  induction vs with
  | nil => intro t x h; simp [updateViewList] at h
  | cons v vs ih =>
    intro t x h
    rw [updateViewList] at h
    split at h
    · rename_i he; cases h; exact updateEagerView_err he
    · exact ih h

theorem updateViewList_docs {id} : ∀ {vs t t'}, updateViewList vs id t = .ok t' →
    t'.docs = t.docs ∧ t'.invalidated = t.invalidated := by
  intro vs
  induction vs with
  | nil => intro t t' h; simp [updateViewList] at h; subst h; exact ⟨rfl, rfl⟩
  | cons v vs ih =>
    intro t t' h
    rw [updateViewList] at h
    split at h
    · cases h
    · rename_i t1 he
      have h1 := updateEagerView_docs he
      have h2 := ih h
      exact ⟨h2.1.trans h1.1, h2.2.trans h1.2⟩

theorem updateEagerViews_err {s c id t x} (h : updateEagerViews s c id t = .error x) : ViewErr x :=
  updateViewList_err h

theorem updateEagerViews_docs {s c id t t'} (h : updateEagerViews s c id t = .ok t') :
    t'.docs = t.docs ∧ t'.invalidated = t.invalidated := updateViewList_docs h

/-- No view of the collection is eager. -/
def NoEager (s : Schema) (c : QName) : Prop := ∀ v ∈ s.viewsIn c, v.policy.isEager = false

theorem updateEagerViews_none {s c id t} (h : NoEager s c) : updateEagerViews s c id t = .ok t := by
  unfold updateEagerViews
  have : (s.viewsIn c).filter (fun v => v.policy.isEager) = [] := by
    rw [List.filter_eq_nil_iff]; intro v hv; simp [h v hv]
  rw [this]; rfl

/-! ## Well-formed document trees -/

/-- Every stored document carries its own id and the digest of its contents. -/
def DocsWF (digest : Bytes → Bytes) (S : Bytes → Prop) (docs : QName → OMap Document) : Prop :=
  ∀ c id d, (docs c).get id = some d →
    d.header.id = id ∧ d.header.revision.sha = digest d.contents ∧ S d.contents

theorem docsWF_empty {digest S} : DocsWF digest S Trees.empty.docs := by
  intro c id d h; simp [Trees.empty] at h

theorem get_upd {docs : QName → OMap Document} {c c' m} {id : Bytes} :
    (upd docs c m c').get id = if c' = c then m.get id else (docs c').get id := by
  by_cases h : c' = c
  · subst h; simp
  · rw [upd_ne _ _ h, if_neg h]

theorem DocsWF.set {digest S docs} (h : DocsWF digest S docs) {c id d}
    (h1 : d.header.id = id) (h2 : d.header.revision.sha = digest d.contents) (h3 : S d.contents) :
    DocsWF digest S (upd docs c ((docs c).set id d)) := by
  intro c' id' d' hg
  rw [get_upd] at hg
  split at hg
  · rw [OMap.get_set] at hg
    split at hg
    · rename_i e _; cases hg; subst h1; refine ⟨?_, h2, h3⟩; simp_all
    · subst_vars; exact h _ _ _ hg
  · exact h _ _ _ hg

theorem DocsWF.remove {digest S docs} (h : DocsWF digest S docs) {c id} :
    DocsWF digest S (upd docs c ((docs c).remove id)) := by
  intro c' id' d' hg
  rw [get_upd] at hg
  split at hg
  · rw [OMap.get_remove] at hg
    split at hg
    · cases hg
    · subst_vars; exact h _ _ _ hg
  · exact h _ _ _ hg

/-- The map represented by document trees. -/
def absDocs (docs : QName → OMap Document) : AbsStore := fun c id =>
  ((docs c).get id).map fun d => (d.header.revision.id, d.contents)

theorem abs_eq (t : Trees) : t.abs = absDocs t.docs := rfl

theorem absDocs_set {docs c id d} :
    absDocs (upd docs c ((docs c).set id d)) =
      (absDocs docs).put c id (some (d.header.revision.id, d.contents)) := by
  funext c' id'
  unfold absDocs AbsStore.put
  rw [get_upd]
  by_cases hc : c' = c
  · subst hc
    rw [if_pos rfl, OMap.get_set]
    by_cases hi : id = id'
    · subst hi; simp
    · have : ¬ id' = id := fun e => hi e.symm
      simp [hi, this]
  · simp [hc]

theorem absDocs_remove {docs c id} :
    absDocs (upd docs c ((docs c).remove id)) = (absDocs docs).put c id none := by
  funext c' id'
  unfold absDocs AbsStore.put
  rw [get_upd]
  by_cases hc : c' = c
  · subst hc
    rw [if_pos rfl, OMap.get_remove]
    by_cases hi : id = id'
    · subst hi; simp
    · have : ¬ id' = id := fun e => hi e.symm
      simp [hi, this]
  · simp [hc]

theorem abs_of_get {docs : QName → OMap Document} {c id d} (h : (docs c).get id = some d) :
    absDocs docs c id = some (d.header.revision.id, d.contents) := by simp [absDocs, h]

theorem abs_of_none {docs : QName → OMap Document} {c id} (h : (docs c).get id = none) :
    absDocs docs c id = none := by simp [absDocs, h]

theorem DocsWF.header {digest S docs} (h : DocsWF digest S docs) {c id d}
    (hg : (docs c).get id = some d) : d.header = headerOf digest id (d.header.revision.id, d.contents) := by
  obtain ⟨h1, h2, -⟩ := h _ _ _ hg
  obtain ⟨⟨i, ⟨n, sh⟩⟩, ct⟩ := d
  simp [headerOf] at *
  exact ⟨h1, h2⟩

theorem lastKey_largest (t : Trees) (c : QName) : IsLargest t.abs c (t.docs c).lastKey := by
  rw [abs_eq]
  cases h : (t.docs c).lastKey with
  | none => intro id; exact abs_of_none (OMap.lastKey_none h id)
  | some l =>
    have hk := OMap.lastKey_some h
    refine ⟨?_, ?_⟩
    · obtain ⟨h1, _⟩ := hk
      cases hg : (t.docs c).get l with
      | none => simp [hg] at h1
      | some d => rw [abs_of_get hg]; simp
    · intro id hid
      apply hk.2
      cases hg : (t.docs c).get id with
      | none => rw [abs_of_none hg] at hid; exact absurd rfl hid
      | some d => simp [hg]

/-- One operation refines the specification, and keeps the trees well formed. -/
structure OpRefines (s : Schema) (S : Bytes → Prop) (t : Trees) (op : Operation)
    (res : Except Err (Trees × OpResult)) : Prop where
  ok : ∀ t' r, res = .ok (t', r) → DocsWF s.digest S t'.docs ∧ t'.invalidated = t.invalidated ∧
    specOp s.digest t.abs (s.nextId op.collection (t.docs op.collection).lastKey) op = .ok (t'.abs, r)
  err : ∀ e, res = .error e →
    specOp s.digest t.abs (s.nextId op.collection (t.docs op.collection).lastKey) op = .error e ∨
      (ViewErr e ∧ ¬ NoEager s op.collection)

theorem storeDoc_ok {s c t id d t'} (h : storeDoc s c t id d = .ok t') :
    t'.docs = upd t.docs c ((t.docs c).set id d) ∧ t'.invalidated = t.invalidated := by
  unfold storeDoc at h
  have := updateEagerViews_docs h
  exact ⟨this.1, this.2⟩

theorem storeDoc_err {s c t id d e} (h : storeDoc s c t id d = .error e) :
    ViewErr e ∧ ¬ NoEager s c := by
  unfold storeDoc at h
  refine ⟨updateEagerViews_err h, fun hn => ?_⟩
  rw [updateEagerViews_none hn] at h; cases h

theorem execUpdate_refines {s S c t id check contents op}
    (hS : CollisionFree s.digest S) (hwf : DocsWF s.digest S t.docs) (hc : S contents)
    (hop : op = ⟨c, .overwrite id contents⟩ ∧ check = none ∨
      ∃ h : Header, op = ⟨c, .update h contents⟩ ∧ id = h.id ∧ check = some h.revision) :
    OpRefines s S t op (execUpdate s c t id check contents) := by
  have hcol : op.collection = c := by rcases hop with h | ⟨h, h1, _⟩ <;> simp_all
  have key : ∀ (a : AbsStore) (nid : Option Bytes), specOp s.digest a nid op =
      match a c id with
      | none => if check = none then .ok (a.put c id (some (0, contents)),
          .updated c (headerOf s.digest id (0, contents))) else .error (.notFound c id)
      | some d => if check = none ∨ check = some (headerOf s.digest id d).revision then
          absWrite s.digest a c id d contents else .error (.conflict c (headerOf s.digest id d)) := by
    intro a nid
    rcases hop with ⟨h, h'⟩ | ⟨h, h1, h2, h3⟩
    · subst h h'
      simp only [specOp]
      cases a c id <;> simp
    · subst h1 h2 h3
      simp only [specOp]
      cases a c h.id with
      | none => simp
      | some d =>
        have : h = headerOf s.digest h.id d ↔ h.revision = (headerOf s.digest h.id d).revision := by
          obtain ⟨i, rv⟩ := h
          simp [headerOf]
        simp only [this]; simp
  unfold execUpdate
  cases hg : (t.docs c).get id with
  | none =>
    have ha := abs_of_none hg
    simp only [updateStored]
    by_cases hn : check = none
    · simp only [hn, if_true]
      constructor
      · intro t' r h
        split at h
        · cases h
        · rename_i t1 hst
          cases h
          obtain ⟨hd, hi⟩ := storeDoc_ok hst
          refine ⟨?_, hi, ?_⟩
          · rw [hd]; exact hwf.set rfl rfl hc
          · rw [key, abs_eq, ha, abs_eq, hd, absDocs_set]; simp [hn]; exact ⟨rfl, rfl⟩
      · intro e h
        split at h
        · rename_i hst; cases h; right; rw [hcol]; exact storeDoc_err hst
        · cases h
    · simp only [hn, if_false]
      constructor
      · intro t' r h; cases h
      · intro e h; cases h; left; rw [key, abs_eq, ha]; simp [hn]
  | some doc =>
    have ha := abs_of_get hg
    have hh := hwf.header hg
    obtain ⟨hid, hsha, hSd⟩ := hwf _ _ _ hg
    simp only [updateStored]
    by_cases hchk : check = none ∨ check = some doc.header.revision
    · rw [if_pos hchk]
      have hchk' : check = none ∨
          check = some (headerOf s.digest id (doc.header.revision.id, doc.contents)).revision := by
        rw [← hh]; exact hchk
      by_cases hsame : s.digest contents = doc.header.revision.sha
      · have hceq : contents = doc.contents := hS _ _ hc hSd (hsame.trans hsha)
        simp only [Revision.next, hsame, if_true]
        constructor
        · intro t' r h; cases h
          refine ⟨hwf, rfl, ?_⟩
          rw [key, abs_eq, ha]; simp only; rw [if_pos hchk', absWrite, if_pos hceq, ← hh]
        · intro e h; cases h
      · have hcne : contents ≠ doc.contents := fun e => hsame (by rw [e, hsha])
        simp only [Revision.next, if_neg hsame]
        by_cases hov : doc.header.revision.id + 1 < 2 ^ 32
        · simp only [if_pos hov]
          constructor
          · intro t' r h
            split at h
            · cases h
            · rename_i t1 hst
              cases h
              obtain ⟨hd, hi⟩ := storeDoc_ok hst
              refine ⟨?_, hi, ?_⟩
              · rw [hd]; exact hwf.set rfl rfl hc
              · rw [key, abs_eq, ha, abs_eq, hd, absDocs_set]; simp only
                rw [if_pos hchk', absWrite, if_neg hcne, if_pos hov]; rfl
          · intro e h
            split at h
            · rename_i hst; cases h; right; rw [hcol]; exact storeDoc_err hst
            · cases h
        · simp only [if_neg hov]
          constructor
          · intro t' r h; cases h
          · intro e h; cases h; left
            rw [key, abs_eq, ha]; simp only
            rw [if_pos hchk', absWrite, if_neg hcne, if_neg hov]
    · rw [if_neg hchk]
      have hchk' : ¬ (check = none ∨
          check = some (headerOf s.digest id (doc.header.revision.id, doc.contents)).revision) := by
        rw [← hh]; exact hchk
      constructor
      · intro t' r h; cases h
      · intro e h; cases h; left
        rw [key, abs_eq, ha]; simp only
        rw [if_neg hchk', ← hh]

theorem execOp_refines {s S t op} (hS : CollisionFree s.digest S) (hwf : DocsWF s.digest S t.docs)
    (hc : ∀ x, op.command.contents = some x → S x) : OpRefines s S t op (execOp s t op) := by
  obtain ⟨c, cmd⟩ := op
  cases cmd with
  | insert id contents =>
    have hcc : S contents := hc _ rfl
    simp only [execOp, execInsert]
    cases hid : (id.orElse fun _ => s.nextId c (t.docs c).lastKey) with
    | none =>
      constructor
      · intro t' r h; cases h
      · intro e h; cases h; left; simp only [specOp, hid]
    | some i =>
      simp only
      cases hg : (t.docs c).get i with
      | some doc =>
        constructor
        · intro t' r h; cases h
        · intro e h; cases h; left
          simp only [specOp, hid, abs_eq, abs_of_get hg]
          rw [← hwf.header hg]
      | none =>
        simp only
        constructor
        · intro t' r h
          split at h
          · cases h
          · rename_i t1 hst
            cases h
            obtain ⟨hd, hi⟩ := storeDoc_ok hst
            refine ⟨?_, hi, ?_⟩
            · rw [hd]; exact hwf.set rfl rfl hcc
            · simp only [specOp, hid, abs_eq, abs_of_none hg, hd, absDocs_set]; rfl
        · intro e h
          split at h
          · rename_i hst; cases h; right; exact storeDoc_err hst
          · cases h
  | update h contents =>
    exact execUpdate_refines hS hwf (hc _ rfl) (.inr ⟨h, rfl, rfl, rfl⟩)
  | overwrite id contents =>
    exact execUpdate_refines hS hwf (hc _ rfl) (.inl ⟨rfl, rfl⟩)
  | delete h =>
    simp only [execOp, execDelete]
    cases hg : (t.docs c).get h.id with
    | none =>
      constructor
      · intro t' r h; cases h
      · intro e he; cases he; left; simp only [specOp, abs_eq, abs_of_none hg]
    | some doc =>
      have hh := hwf.header hg
      simp only
      by_cases heq : doc.header = h
      · rw [if_pos heq]
        constructor
        · intro t' r hr
          split at hr
          · cases hr
          · rename_i t1 hst
            cases hr
            have hd := updateEagerViews_docs hst
            refine ⟨?_, hd.2, ?_⟩
            · rw [hd.1]; exact hwf.remove
            · simp only [specOp, abs_eq, abs_of_get hg, hd.1, absDocs_remove]
              rw [if_pos (by rw [← hh]; exact heq.symm)]
        · intro e hr
          split at hr
          · rename_i hst; cases hr; right
            refine ⟨updateEagerViews_err hst, fun hn => ?_⟩
            rw [updateEagerViews_none hn] at hst; cases hst
          · cases hr
      · rw [if_neg heq]
        constructor
        · intro t' r hr; cases hr
        · intro e hr; cases hr; left
          simp only [specOp, abs_eq, abs_of_get hg]
          rw [if_neg (by rw [← hh]; exact fun e => heq e.symm)]
  | check id rev =>
    simp only [execOp, execCheck]
    cases hg : (t.docs c).get id with
    | none =>
      constructor
      · intro t' r h; cases h
      · intro e he; cases he; left; simp only [specOp, abs_eq, abs_of_none hg]
    | some doc =>
      have hh := hwf.header hg
      cases rev with
      | none =>
        constructor
        · intro t' r h; cases h; exact ⟨hwf, rfl, by simp only [specOp, abs_eq, abs_of_get hg]⟩
        · intro e he; cases he
      | some r =>
        simp only
        by_cases he : doc.header.revision = r
        · rw [if_neg (not_not_intro he)]
          constructor
          · intro t' r h; cases h
            exact ⟨hwf, rfl, by simp only [specOp, abs_eq, abs_of_get hg]; rw [if_pos (by rw [← hh]; exact he)]⟩
          · intro e he; cases he
        · rw [if_pos he]
          constructor
          · intro t' r h; cases h
          · intro e h; cases h; left
            simp only [specOp, abs_eq, abs_of_get hg]; rw [if_neg (by rw [← hh]; exact he)]

end Bonsai.Store
