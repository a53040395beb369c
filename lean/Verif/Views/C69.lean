import Verif.Views.Entry
import Verif.Views.C34

/-!
# C69: `entry(..)` finds, updates or inserts the one document with the name
-/
set_option linter.unusedSimpArgs false
set_option linter.unusedVariables false

namespace Bonsai.Store
open Bonsai Bonsai.Names Bonsai.Query

/-! ## Specification -/

/-- The document has the name: the name view's map emits the key for it. -/
def HasName (nv : View) (d : Document) (key : Bytes) : Prop := ∃ y, Emits nv d key y

/-- The documents of the named collection. -/
def VSys.docs (v : VSys) (nv : View) : OMap Document := v.db.trees.docs nv.name.collection

/-- How often caller `i` did `e`. -/
def times (i : Nat) (e : EntryEvent) (es : List (Option (Nat × EntryEvent))) : Nat := es.count (some (i, e))

/-! ## Single operations -/

theorem prepare_known {s : Schema} {t : Trees} {op : Operation} {r} (h : prepare s t [op] = .ok r) :
    op.collection ∈ s.collections := by
  unfold prepare at h
  by_cases hk : collectionsKnown s [op] = true
  · simpa [collectionsKnown] using hk
  · rw [if_neg hk] at h; cases h

theorem prepare_one {s : Schema} {t t' : Trees} {op : Operation} {ch : Changes} {rs : List OpResult}
    (h : prepare s t [op] = .ok (t', ch, rs)) :
    ∃ t1 r, execOp s t op = .ok (t1, r) ∧ rs = [r] ∧ t'.docs = t1.docs := by
  rcases apply_single (s := s) (db := ⟨t, []⟩) (tid := 0) (op := op) (prepare_known h) with
    ⟨t1, r, ch1, hex, happ⟩ | ⟨e, hex, happ⟩
  · simp only [applyToRoots, h] at happ
    simp only [Prod.mk.injEq, Except.ok.injEq, Db.mk.injEq] at happ
    obtain ⟨h1, h2, -⟩ := happ
    exact ⟨t1, r, hex, h1, by rw [h2]; rfl⟩
  · simp [applyToRoots, h] at happ

theorem prepare_update {s : Schema} {S : Bytes → Prop} (hS : CollisionFree s.digest S) {t t' : Trees} {c : QName}
    {h : Header} {x : Bytes} {ch : Changes} {rs : List OpResult} (hwf : DocsWF s.digest S t.docs) (hx : S x)
    (hp : prepare s t [⟨c, .update h x⟩] = .ok (t', ch, rs)) :
    ∃ hd d0, rs = [.updated c hd] ∧ (t.docs c).get h.id = some d0 ∧ d0.header.revision = h.revision ∧
      (t'.docs c).get h.id = some ⟨hd, x⟩ ∧
      ∀ c' id', ¬ (c' = c ∧ id' = h.id) → (t'.docs c').get id' = (t.docs c').get id' := by
  obtain ⟨t1, r, hex, rfl, hdocs⟩ := prepare_one hp
  simp only [execOp] at hex
  obtain ⟨hd, rfl, h1, h2, -⟩ := execUpdate_stored hS hwf hx hex
  rw [hdocs]
  cases hg : (t.docs c).get h.id with
  | none =>
    simp only [execUpdate, hg, updateStored] at hex
    simp at hex
  | some d0 =>
    refine ⟨hd, d0, rfl, rfl, ?_, h1, h2⟩
    simp only [execUpdate, hg, updateStored] at hex
    by_cases hc : some h.revision = none ∨ some h.revision = some d0.header.revision
    · simp at hc; exact hc.symm
    · rw [if_neg hc] at hex; cases hex

theorem viewErr_conflict {e : Err} (h : ViewErr e) : e.conflictId = none := by
  cases e <;> simp [ViewErr] at h <;> rfl

theorem prepare_conflict {s : Schema} {t : Trees} {c : QName} {h : Header} {x : Bytes} {e : Err} {id : Bytes}
    {S : Bytes → Prop} (hwf : DocsWF s.digest S t.docs)
    (hp : prepare s t [⟨c, .update h x⟩] = .error e) (he : e.conflictId = some id) :
    id = h.id ∧ ∃ d0, (t.docs c).get h.id = some d0 ∧ d0.header.revision ≠ h.revision := by
  unfold prepare at hp
  split at hp
  · simp only [runOps, execOp] at hp
    cases hex : execUpdate s c t h.id (some h.revision) x with
    | ok p =>
      rw [hex] at hp
      obtain ⟨ch, hch⟩ := recordChange_first (changedBy p.2)
      simp [hch, runOps] at hp
    | error e' =>
      rw [hex] at hp
      simp only [Except.error.injEq] at hp
      subst hp
      unfold execUpdate at hex
      cases hg : (t.docs c).get h.id with
      | none =>
        rw [hg] at hex
        simp [updateStored] at hex
        subst hex
        cases he
      | some d0 =>
        rw [hg] at hex
        simp only [updateStored] at hex
        by_cases hc : some h.revision = none ∨ some h.revision = some d0.header.revision
        · rw [if_pos hc] at hex
          exfalso
          cases hn : d0.header.revision.next s.digest x with
          | error e2 =>
            rw [hn] at hex
            simp only [Except.error.injEq] at hex
            subst hex
            unfold Revision.next at hn
            split at hn
            · cases hn
            · split at hn <;> cases hn
              cases he
          | ok o =>
            rw [hn] at hex
            cases o with
            | none => simp at hex
            | some r =>
              simp only at hex
              cases hst : storeDoc s c t h.id ⟨⟨h.id, r⟩, x⟩ with
              | ok t2 => rw [hst] at hex; simp at hex
              | error e2 =>
                rw [hst] at hex
                simp only [Except.error.injEq] at hex
                subst hex
                rw [viewErr_conflict (updateEagerViews_err hst)] at he
                cases he
        · rw [if_neg hc] at hex
          simp only [Except.error.injEq] at hex
          subst hex
          simp only [Err.conflictId, Option.some.injEq] at he
          have hid := (hwf _ _ _ hg).1
          refine ⟨by rw [← he, hid], d0, rfl, ?_⟩
          simp at hc
          exact fun e => hc e.symm
  · cases hp; cases he

theorem prepare_insert {s : Schema} {t t' : Trees} {c : QName} {oid : Option Bytes} {x : Bytes} {ch : Changes}
    {rs : List OpResult} (hp : prepare s t [⟨c, .insert oid x⟩] = .ok (t', ch, rs)) :
    ∃ h, rs = [.updated c h] ∧ (t.docs c).get h.id = none ∧ (t'.docs c).get h.id = some ⟨h, x⟩ ∧
      ∀ c' id', ¬ (c' = c ∧ id' = h.id) → (t'.docs c').get id' = (t.docs c').get id' := by
  obtain ⟨t1, r, hex, rfl, hdocs⟩ := prepare_one hp
  obtain ⟨h, rfl, -, -, h1, h2, h3⟩ := C23_insert_starts_at_zero s _ _ c oid x r hex
  rw [hdocs]
  exact ⟨h, rfl, h1, h2, h3⟩

/-! ## The invariant -/

structure EntryInv (s : Schema) (S : Bytes → Prop) (nv : View) (calls : Nat → EntryCall) (σ : EntrySys) : Prop where
  past : ∃ σ₀, VStart nv σ₀ ∧ (∀ id, (σ₀.db.trees.invalidated nv.name).get id = none) ∧ VExec s σ₀ σ.v
  docs : DocsWF s.digest S σ.v.db.trees.docs
  held : ∀ i d k, σ.callers i = .trying d k →
    d.header.revision.sha = s.digest d.contents ∧ S d.contents ∧ (calls i).update.isSome
  inserting : ∀ i, σ.callers i = .inserting → (calls i).insert.isSome
  reloading : ∀ i id k, σ.callers i = .reloading id k → (calls i).update.isSome

theorem namedIds_eq (t : Trees) (nv : View) (key : Bytes) :
    namedIds t nv key = (mappingsOf ((t.entries nv.name).get key)).map (·.source.id) := by
  unfold namedIds queryByName viewIterator
  cases hg : (t.entries nv.name).get key <;> simp [hg, mappingsOf]

/-- What the name view shows, at any moment: exactly the documents with the name, at most one. -/
theorem namedIds_spec {s : Schema} {S : Bytes → Prop} {nv : View} {calls : Nat → EntryCall} {σ : EntrySys}
    (hdv : DistinctViews s) (hv : nv ∈ s.views) (hu : nv.policy = .unique) (hi : EntryInv s S nv calls σ)
    (key : Bytes) : (namedIds σ.v.db.trees nv key).length ≤ 1 ∧
      ∀ id, id ∈ namedIds σ.v.db.trees nv key ↔ ∃ d, (σ.v.docs nv).get id = some d ∧ HasName nv d key := by
  obtain ⟨σ₀, h1, h2, h3⟩ := hi.past
  rw [namedIds_eq]
  refine ⟨by simpa [VSys.at] using (C30_unique_keys s hdv nv hv hu σ₀ σ.v h1 h2 h3).2 key, ?_⟩
  intro id
  have hcur := C29_eager_view_always_current s hdv nv hv (by rw [hu]; rfl) σ₀ σ.v h1 h2 h3 key
  simp only [List.mem_map]
  constructor
  · rintro ⟨m, hm, rfl⟩
    obtain ⟨id', d, ms, hd, hms, hsrc, hval⟩ := (hcur m).mp hm
    have hid : m.source.id = id' := by rw [hsrc]; exact (hi.docs _ _ _ hd).1
    refine ⟨d, by rw [hid]; exact hd, ?_⟩
    have : key ∈ ms.map (·.1) := lastValue_isSome.mp (by rw [hval]; rfl)
    obtain ⟨⟨k', y⟩, hy, rfl⟩ := List.mem_map.mp this
    exact ⟨y, ms, hms, hy⟩
  · rintro ⟨d, hd, y, ms, hms, hy⟩
    obtain ⟨w, hw⟩ := Option.isSome_iff_exists.mp
      (lastValue_isSome.mpr (List.mem_map.mpr ⟨_, hy, rfl⟩) : (lastValue ms key).isSome)
    exact ⟨⟨d.header, w⟩, (hcur _).mpr ⟨id, d, ms, hd, hms, rfl, hw⟩, (hi.docs _ _ _ hd).1⟩

theorem firstDoc_nil (t : Trees) (c : QName) : firstDoc t c [] = none := rfl

theorem firstDoc_one (t : Trees) (c : QName) (id : Bytes) : firstDoc t c [id] = (t.docs c).get id := by
  unfold firstDoc getDocs
  simp only [sortKeys, insertKey, getMultiple]
  cases hg : (t.docs c).get id with
  | none => simp [hg]; rfl
  | some d => simp [hg]; exact ⟨_, rfl⟩

theorem firstDoc_stored {t : Trees} {c : QName} {ids : List Bytes} {d : Document} (h : firstDoc t c ids = some d) :
    ∃ id, (t.docs c).get id = some d := by
  unfold firstDoc at h
  simp only [Option.map_eq_some_iff] at h
  obtain ⟨⟨k, d'⟩, h1, rfl⟩ := h
  have hm := List.mem_of_head? h1
  rw [OMap.mem_list_iff, foldl_docs_get] at hm
  simp only [Option.or_eq_some_iff] at hm
  rcases hm with hm | ⟨-, hm⟩
  · have := List.mem_of_find?_eq_some hm
    simp only [getDocs, List.mem_reverse, List.mem_map] at this
    obtain ⟨⟨k', d''⟩, hk, rfl⟩ := this
    exact ⟨k', (mem_getMultiple.mp hk).2⟩
  · cases hm

theorem loaded_trying {call : EntryCall} {o : Option Document} {d : Document} {k : Nat}
    (h : call.loaded o = .trying d k) : o = some d ∧ k = 0 ∧ call.update.isSome := by
  cases o with
  | some d' =>
    simp only [EntryCall.loaded] at h
    split at h
    · cases h; exact ⟨rfl, rfl, by assumption⟩
    · cases h
  | none =>
    simp only [EntryCall.loaded] at h
    split at h <;> cases h

theorem loaded_inserting {call : EntryCall} {o : Option Document} (h : call.loaded o = .inserting) :
    o = none ∧ call.insert.isSome := by
  cases o with
  | some d' => simp only [EntryCall.loaded] at h; split at h <;> cases h
  | none =>
    simp only [EntryCall.loaded] at h
    split at h
    · exact ⟨rfl, by assumption⟩
    · cases h

theorem loaded_reloading {call : EntryCall} {o : Option Document} {id : Bytes} {k : Nat}
    (h : call.loaded o = .reloading id k) : False := by
  cases o with
  | some d' => simp only [EntryCall.loaded] at h; split at h <;> cases h
  | none => simp only [EntryCall.loaded] at h; split at h <;> cases h

theorem single_writes {S : Bytes → Prop} {c : QName} {cmd : Command} (h : ∀ x, cmd.contents = some x → S x) :
    Writes S [⟨c, cmd⟩] := by
  intro op hop x hx
  simp at hop
  subst hop
  exact h x hx

theorem prepare_docsWF {s : Schema} {S : Bytes → Prop} (hS : CollisionFree s.digest S) {t t' : Trees}
    {ops : List Operation} {ch : Changes} {rs : List OpResult} (hwf : DocsWF s.digest S t.docs) (hw : Writes S ops)
    (hp : prepare s t ops = .ok (t', ch, rs)) : DocsWF s.digest S t'.docs := by
  have := prepare_refines hS hwf hw
  rw [hp] at this
  exact this.1

theorem entry_step_inv {s : Schema} {S : Bytes → Prop} {nv : View} {calls : Nat → EntryCall} {σ σ' : EntrySys}
    {l : Option (Nat × EntryEvent)} (hS : CollisionFree s.digest S) (hc : CallsIn S calls)
    (hi : EntryInv s S nv calls σ) (hs : EntryStep s S nv calls σ l σ') : EntryInv s S nv calls σ' := by
  obtain ⟨⟨σ₀, hp1, hp2, hp3⟩, hd, hh, hins, hrel⟩ := hi
  cases hs with
  | transaction hw ha htid =>
    exact ⟨⟨σ₀, hp1, hp2, .step hp3 (.transaction ha htid)⟩, prepare_docsWF hS hd hw ha, hh, hins, hrel⟩
  | background h hdocs => exact ⟨⟨σ₀, hp1, hp2, .step hp3 h⟩, by rw [hdocs]; exact hd, hh, hins, hrel⟩
  | @caller i e v' p' h =>
    -- the other callers do not change
    have key : ∀ (hq1 : ∃ σ₀, VStart nv σ₀ ∧ (∀ id, (σ₀.db.trees.invalidated nv.name).get id = none) ∧ VExec s σ₀ v')
        (hq2 : DocsWF s.digest S v'.db.trees.docs)
        (hq3 : ∀ d k, p' = .trying d k →
          d.header.revision.sha = s.digest d.contents ∧ S d.contents ∧ (calls i).update.isSome)
        (hq4 : p' = .inserting → (calls i).insert.isSome)
        (hq5 : ∀ id k, p' = .reloading id k → (calls i).update.isSome), EntryInv s S nv calls ⟨v', upd σ.callers i p'⟩ := by
      intro hq1 hq2 hq3 hq4 hq5
      refine ⟨hq1, hq2, ?_, ?_, ?_⟩
      · intro j d k hj
        by_cases e : j = i
        · subst e; simp only [upd_self] at hj; exact hq3 d k hj
        · simp only [upd_ne _ _ e] at hj; exact hh j d k hj
      · intro j hj
        by_cases e : j = i
        · subst e; simp only [upd_self] at hj; exact hq4 hj
        · simp only [upd_ne _ _ e] at hj; exact hins j hj
      · intro j id k hj
        by_cases e : j = i
        · subst e; simp only [upd_self] at hj; exact hq5 id k hj
        · simp only [upd_ne _ _ e] at hj; exact hrel j id k hj
    have same := (⟨σ₀, hp1, hp2, hp3⟩ : ∃ σ₀, VStart nv σ₀ ∧ (∀ id, (σ₀.db.trees.invalidated nv.name).get id = none) ∧ VExec s σ₀ σ.v)
    generalize hph : σ.callers i = ph at h
    cases h with
    | lookup hr => exact key same hd (by simp) (by simp) (by simp)
    | fetch =>
      refine key same hd ?_ (fun h => (loaded_inserting h).2) (fun _ _ h => (loaded_reloading h).elim)
      intro d k h
      obtain ⟨h1, -, h2⟩ := loaded_trying h
      obtain ⟨id, h3⟩ := firstDoc_stored h1
      exact ⟨(hd _ _ _ h3).2.1, (hd _ _ _ h3).2.2, h2⟩
    | get hr =>
      refine key same hd ?_ (fun h => (loaded_inserting h).2) (fun _ _ h => (loaded_reloading h).elim)
      intro d k h
      obtain ⟨h1, -, h2⟩ := loaded_trying h
      exact ⟨(hd _ _ _ h1).2.1, (hd _ _ _ h1).2.2, h2⟩
    | @accept d k f tid t ch rs hf ha htid =>
      have hx : S (f k d.contents) := (hc i).1 f hf k _ (hh i d k hph).2.1
      exact key ⟨σ₀, hp1, hp2, .step hp3 (.transaction ha htid)⟩
        (prepare_docsWF hS hd (single_writes (by intro x hx'; cases hx'; exact hx)) ha) (by simp) (by simp) (by simp)
    | @conflict d k f e id hf ha he =>
      refine key same hd ?_ ?_ (fun _ _ _ => by rw [hf]; rfl)
      · intro d' k' h
        unfold EntryCall.refused at h
        split at h <;> cases h
      · intro h
        unfold EntryCall.refused at h
        split at h <;> cases h
    | error => exact key same hd (by simp) (by simp) (by simp)
    | @reload id k =>
      refine key same hd ?_ ?_ ?_
      · intro d' k' h
        cases hg : getDoc σ.v.db nv.name.collection id with
        | none => rw [hg] at h; cases h
        | some d2 =>
          rw [hg] at h
          cases h
          exact ⟨(hd _ _ _ hg).2.1, (hd _ _ _ hg).2.2, hrel i id k hph⟩
      · intro h
        cases hg : getDoc σ.v.db nv.name.collection id with
        | none => rw [hg] at h; cases h
        | some d2 => rw [hg] at h; cases h
      · intro id' k' h
        cases hg : getDoc σ.v.db nv.name.collection id with
        | none => rw [hg] at h; cases h
        | some d2 => rw [hg] at h; cases h
    | @push oid x tid t ch rs hx ha htid =>
      exact key ⟨σ₀, hp1, hp2, .step hp3 (.transaction ha htid)⟩
        (prepare_docsWF hS hd (single_writes (by intro y hy; cases hy; exact (hc i).2 oid x hx)) ha) (by simp) (by simp) (by simp)
    | pushFails => exact key same hd (by simp) (by simp) (by simp)

end Bonsai.Store
