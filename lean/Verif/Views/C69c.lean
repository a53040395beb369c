import Verif.Views.C69b

/-!
# C69: conflicts, and calls during which the name stays taken or stays free
-/
set_option linter.unusedSimpArgs false
set_option linter.unusedVariables false

namespace Bonsai.Store
open Bonsai Bonsai.Names Bonsai.Query

/-- **C69.** At every moment at most one document has the name. -/
theorem C69_one_document (s : Schema) (S : Bytes → Prop) (hS : CollisionFree s.digest S) (hdv : DistinctViews s)
    (nv : View) (hv : nv ∈ s.views) (hu : nv.policy = .unique) (calls : Nat → EntryCall) (hc : CallsIn S calls)
    (P : VSys → Prop) (σ₀ σ : EntrySys) (es : List (Option (Nat × EntryEvent))) (h0 : EntryStart s S nv σ₀)
    (h : EntryExec s S nv calls P σ₀ es σ) (key x y : Bytes) (d d' : Document)
    (hx : (σ.v.docs nv).get x = some d) (hy : (σ.v.docs nv).get y = some d') (hnx : HasName nv d key)
    (hny : HasName nv d' key) : x = y := by
  obtain ⟨h1, h2⟩ := namedIds_spec hdv hv hu (entry_exec_inv hS hc h0 h) key
  have m1 := (h2 x).mpr ⟨d, hx, hnx⟩
  have m2 := (h2 y).mpr ⟨d', hy, hny⟩
  generalize namedIds σ.v.db.trees nv key = l at h1 m1 m2
  match l, h1 with
  | [], _ => cases m1
  | [z], _ => simp at m1 m2; rw [m1, m2]

theorem refused_ids {call : EntryCall} {k : Nat} {e : Err} {id : Bytes} {p : EntryPhase}
    (h : call.refused k e id = p) : p = .reloading id (k + 1) ∨ p = .failed e := by
  unfold EntryCall.refused at h
  split at h
  · exact .inl h.symm
  · exact .inr h.symm

/-! ## Conflicts -/

/-- A read of caller `i` that found `d`, followed by `es2`. -/
def ReadThen (s : Schema) (S : Bytes → Prop) (nv : View) (calls : Nat → EntryCall) (P : VSys → Prop)
    (σ₀ : EntrySys) (i : Nat) (d : Document) (es : List (Option (Nat × EntryEvent))) (σ : EntrySys) : Prop :=
  ∃ es1 es2 σr, es = es1 ++ some (i, .read) :: es2 ∧ EntryExec s S nv calls P σ₀ (es1 ++ [some (i, .read)]) σr ∧
    EntryExec s S nv calls P σr es2 σ ∧ (σr.v.docs nv).get d.header.id = some d

theorem EntryExec.last {s : Schema} {S : Bytes → Prop} {nv : View} {calls : Nat → EntryCall} {P : VSys → Prop}
    {σ σ' : EntrySys} {es} (h : EntryExec s S nv calls P σ es σ') : P σ'.v := by
  cases h with
  | nil hP => exact hP
  | snoc _ _ hP => exact hP

theorem entry_readThen {s : Schema} {S : Bytes → Prop} {nv : View} {calls : Nat → EntryCall} {P : VSys → Prop}
    {σ₀ σ : EntrySys} {es} (hS : CollisionFree s.digest S) (hc : CallsIn S calls) (h0 : EntryStart s S nv σ₀)
    (h : EntryExec s S nv calls P σ₀ es σ) (i : Nat) (d : Document) (k : Nat) (hp : σ.callers i = .trying d k) :
    ReadThen s S nv calls P σ₀ i d es σ := by
  induction h with
  | nil _ => rw [h0.callers i] at hp; cases hp
  | @snoc es σ1 e σ2 hex hs hP ih =>
    have hinv := entry_exec_inv hS hc h0 hex
    have grow : ReadThen s S nv calls P σ₀ i d es σ1 → ReadThen s S nv calls P σ₀ i d (es ++ [e]) σ2 := by
      rintro ⟨es1, es2, σr, rfl, q1, q2, q3⟩
      exact ⟨es1, es2 ++ [e], σr, by simp, q1, .snoc q2 hs hP, q3⟩
    have hs' := hs
    cases hs with
    | transaction hw ha htid => exact grow (ih hp)
    | background hb hd => exact grow (ih hp)
    | @caller j ev v' p' hm =>
      by_cases hj : i = j
      · subst hj
        simp only [upd_self] at hp
        subst hp
        have fresh : ∀ {v'} (e1 : ev = .read) (e2 : v' = σ1.v) (hd : (VSys.docs v' nv).get d.header.id = some d)
            (hs2 : EntryStep s S nv calls σ1 (some (i, ev)) ⟨v', upd σ1.callers i (.trying d k)⟩) (hP2 : P v'),
            ReadThen s S nv calls P σ₀ i d (es ++ [some (i, ev)]) ⟨v', upd σ1.callers i (.trying d k)⟩ := by
          intro v'' e1 e2 hd hs2 hP2
          subst e1
          exact ⟨es, [], _, rfl, .snoc hex hs2 hP2, .nil hP2, hd⟩
        generalize hph : σ1.callers i = ph at hm
        generalize hpp : EntryPhase.trying d k = p' at hm
        cases hm with
        | fetch =>
          obtain ⟨q1, -, -⟩ := loaded_trying hpp.symm
          obtain ⟨id, q2⟩ := firstDoc_stored q1
          have q3 := (hinv.docs _ _ _ q2).1
          have := fresh rfl rfl (by rw [q3]; exact q2) hs' hP
          rw [hpp] at this
          exact this
        | @get id hr =>
          obtain ⟨q1, -, -⟩ := loaded_trying hpp.symm
          have q3 := (hinv.docs _ _ _ q1).1
          have := fresh rfl rfl (by rw [q3]; exact q1) hs' hP
          rw [hpp] at this
          exact this
        | @reload id k' =>
          cases hg : getDoc σ1.v.db nv.name.collection id with
          | none => rw [hg] at hpp; cases hpp
          | some d2 =>
            rw [hg] at hpp
            cases hpp
            have q3 := (hinv.docs _ _ _ hg).1
            exact fresh rfl rfl (by rw [q3]; exact hg) hs' hP
        | lookup hr => cases hpp
        | accept => cases hpp
        | @conflict d k f e id hf ha he =>
          rcases refused_ids hpp.symm with h | h <;> cases h
        | error => cases hpp
        | push => cases hpp
        | pushFails => cases hpp
      · simp only [upd_ne _ _ hj] at hp
        exact grow (ih hp)

/-- **C69.** An attempt is refused only if somebody else has written the document between the read that found
it and the attempt: then its revision is another one. -/
theorem C69_conflict_only_if_changed (s : Schema) (S : Bytes → Prop) (hS : CollisionFree s.digest S) (nv : View)
    (calls : Nat → EntryCall) (hc : CallsIn S calls) (P : VSys → Prop) (σ₀ σ₁ σ₂ : EntrySys)
    (es : List (Option (Nat × EntryEvent))) (h0 : EntryStart s S nv σ₀) (h : EntryExec s S nv calls P σ₀ es σ₁)
    (i : Nat) (hs : EntryStep s S nv calls σ₁ (some (i, .refused)) σ₂) :
    ∃ es1 es2 σr id d d', es = es1 ++ some (i, .read) :: es2 ∧
      EntryExec s S nv calls P σ₀ (es1 ++ [some (i, .read)]) σr ∧ EntryExec s S nv calls P σr es2 σ₁ ∧
      (σr.v.docs nv).get id = some d ∧ (σ₁.v.docs nv).get id = some d' ∧
      d'.header.revision ≠ d.header.revision := by
  have hinv := entry_exec_inv hS hc h0 h
  cases hs with
  | @caller _ _ v' p' hm =>
    generalize hph : σ₁.callers i = ph at hm
    cases hm with
    | @conflict d k f e id hf ha he =>
      obtain ⟨-, d0, q1, q2⟩ := prepare_conflict hinv.docs ha he
      obtain ⟨es1, es2, σr, q3, q4, q5, q6⟩ := entry_readThen hS hc h0 h i d k hph
      exact ⟨es1, es2, σr, d.header.id, d, d0, q3, q4, q5, q6, q1, q2⟩

/-! ## The name stays taken -/

/-- Document `x` has the name. -/
def NamedBy (nv : View) (key x : Bytes) (v : VSys) : Prop := ∃ d, (v.docs nv).get x = some d ∧ HasName nv d key

def TakenInv (nv : View) (key x : Bytes) (call : EntryCall) : EntryPhase → Prop
  | .start => True
  | .fetching ids => ids = [x]
  | .trying d _ => d.header.id = x
  | .reloading id _ => id = x
  | .inserting => False
  | .returned none => False
  | .returned (some d) => d.header.id = x ∧ (call.update = none → HasName nv d key)
  | .failed _ => True

theorem namedIds_taken {s : Schema} {S : Bytes → Prop} {nv : View} {calls : Nat → EntryCall} {σ : EntrySys}
    (hdv : DistinctViews s) (hv : nv ∈ s.views) (hu : nv.policy = .unique) (hi : EntryInv s S nv calls σ)
    {key x : Bytes} (hn : NamedBy nv key x σ.v) : namedIds σ.v.db.trees nv key = [x] := by
  obtain ⟨h1, h2⟩ := namedIds_spec hdv hv hu hi key
  have m1 := (h2 x).mpr hn
  generalize namedIds σ.v.db.trees nv key = l at h1 m1
  match l, h1 with
  | [], _ => cases m1
  | [z], _ => simp at m1; rw [m1]

theorem entry_taken {s : Schema} {S : Bytes → Prop} {nv : View} {calls : Nat → EntryCall} {σ₀ σ : EntrySys}
    {es} {key x : Bytes} {i : Nat} (hS : CollisionFree s.digest S) (hdv : DistinctViews s) (hv : nv ∈ s.views)
    (hu : nv.policy = .unique) (hc : CallsIn S calls) (h0 : EntryStart s S nv σ₀)
    (hr : (calls i).ref = .name key) (h : EntryExec s S nv calls (NamedBy nv key x) σ₀ es σ) :
    TakenInv nv key x (calls i) (σ.callers i) := by
  induction h with
  | nil _ => rw [h0.callers i]; trivial
  | @snoc es σ1 e σ2 hex hs hP ih =>
    have hinv := entry_exec_inv hS hc h0 hex
    obtain ⟨dx, hdx, hnx⟩ := hex.last
    cases hs with
    | transaction hw ha htid => exact ih
    | background hb hd => exact ih
    | @caller j ev v' p' hm =>
      by_cases hj : i = j
      · subst hj
        simp only [upd_self]
        generalize hph : σ1.callers i = ph at hm ih
        cases hm with
        | @lookup key' hr' =>
          rw [hr] at hr'
          cases hr'
          exact namedIds_taken hdv hv hu hinv ⟨dx, hdx, hnx⟩
        | @fetch ids =>
          rw [show ids = [x] from ih, firstDoc_one]
          have hdx' : (σ1.v.db.trees.docs nv.name.collection).get x = some dx := hdx
          rw [hdx']
          simp only [EntryCall.loaded]
          have hid := (hinv.docs _ _ _ hdx).1
          split
          · exact hid
          · exact ⟨hid, fun _ => hnx⟩
        | @get id hr' => rw [hr] at hr'; cases hr'
        | @accept d k f tid t ch rs hf ha htid =>
          obtain ⟨q1, q2, -⟩ := hinv.held i d k hph
          obtain ⟨hd, d0, rfl, hg, hrev, hnew, hframe⟩ :=
            prepare_update hS hinv.docs ((hc i).1 f hf k _ q2) ha
          have hwf' := prepare_docsWF hS hinv.docs
            (single_writes (by intro y hy; cases hy; exact (hc i).1 f hf k _ q2)) ha
          refine ⟨?_, fun hn => by rw [hf] at hn; cases hn⟩
          rw [(hwf' _ _ _ hnew).1]
          exact ih
        | @conflict d k f e id hf ha he =>
          obtain ⟨q1, -⟩ := prepare_conflict hinv.docs ha he
          have ih' : d.header.id = x := ih
          rcases refused_ids (rfl : (calls i).refused k e id = _) with q | q <;> rw [q]
          · exact q1.trans ih'
          · trivial
        | error => trivial
        | @reload id k =>
          rw [show id = x from ih]
          have hdx' : getDoc σ1.v.db nv.name.collection x = some dx := hdx
          rw [hdx']
          exact (hinv.docs _ _ _ hdx).1
        | push => exact ih.elim
        | pushFails => trivial
      · simp only [upd_ne _ _ hj]
        exact ih

/-- **C69.** If one document has the name throughout the call, the call finds it: it never inserts, never returns
nothing, returns and updates only that document, and what it updates still has the name at that moment. -/
theorem C69_finds_the_document (s : Schema) (S : Bytes → Prop) (hS : CollisionFree s.digest S)
    (hdv : DistinctViews s) (nv : View) (hv : nv ∈ s.views) (hu : nv.policy = .unique)
    (calls : Nat → EntryCall) (hc : CallsIn S calls) (σ₀ σ₁ σ₂ : EntrySys)
    (es : List (Option (Nat × EntryEvent))) (h0 : EntryStart s S nv σ₀) (key x : Bytes)
    (h : EntryExec s S nv calls (NamedBy nv key x) σ₀ es σ₁) (i : Nat) (e : EntryEvent)
    (hr : (calls i).ref = .name key) (hs : EntryStep s S nv calls σ₁ (some (i, e)) σ₂) :
    e ≠ .inserted ∧ σ₂.callers i ≠ .returned none ∧
    (∀ d, σ₂.callers i = .returned (some d) → d.header.id = x ∧ ((calls i).update = none → HasName nv d key)) ∧
    (e = .updated → ∃ f d d', (calls i).update = some f ∧ (σ₁.v.docs nv).get x = some d ∧ HasName nv d key ∧
      (σ₂.v.docs nv).get x = some d' ∧ d'.contents = f (times i .refused es) d.contents) := by
  have hinv := entry_exec_inv hS hc h0 h
  have ht := entry_taken hS hdv hv hu hc h0 hr h
  obtain ⟨dx, hdx, hnx⟩ := h.last
  have hinv2 := entry_step_inv hS hc hinv hs
  have hcnt := entry_count hS hc h0 h i
  have hs0 := hs
  cases hs with
  | @caller _ _ v' p' hm =>
    simp only [upd_self]
    generalize hph : σ₁.callers i = ph at hm ht hcnt
    cases hm with
    | @lookup key' hr' => exact ⟨by simp, by simp, by simp, by simp⟩
    | @fetch ids =>
      have hdx' : (σ₁.v.db.trees.docs nv.name.collection).get x = some dx := hdx
      rw [show ids = [x] from ht, firstDoc_one, hdx']
      simp only [EntryCall.loaded]
      have hid := (hinv.docs _ _ _ hdx).1
      refine ⟨by simp, ?_, ?_, by simp⟩
      · split <;> simp
      · intro d hd
        split at hd <;> cases hd
        exact ⟨hid, fun _ => hnx⟩
    | @get id hr' => rw [hr] at hr'; cases hr'
    | @accept d k f tid t ch rs hf ha htid =>
      obtain ⟨q1, q2, -⟩ := hinv.held i d k hph
      obtain ⟨f', d0, d1, p1, p2, p3, p4, p5, p6, -⟩ :=
        C69_update_applies s S hS nv calls hc _ σ₀ σ₁ _ es h0 h i hs0
      simp only [upd_self] at p6
      obtain ⟨hd, d2, rfl, hg, hrev, hnew, hframe⟩ :=
        prepare_update hS hinv.docs ((hc i).1 f hf k _ q2) ha
      have hw : d1.header = hd := by simp [written] at p6; rw [← p6]
      have hid : hd.id = d.header.id := by
        have := prepare_docsWF hS hinv.docs
          (single_writes (by intro y hy; cases hy; exact (hc i).1 f hf k _ q2)) ha _ _ _ hnew
        exact this.1
      have hx : d0.header.id = x := by rw [← p3, hw, hid]; exact ht
      rw [hx] at p2 p5
      refine ⟨by simp, by rw [p6]; simp, ?_, fun _ => ⟨f', d0, d1, p1, p2, ?_, p5, p4⟩⟩
      · intro dd hdd
        rw [p6] at hdd
        cases hdd
        refine ⟨by rw [p3, hx], fun hn => by rw [hf] at hn; cases hn⟩
      · have : dx = d0 := by rw [hdx] at p2; cases p2; rfl
        rw [← this]; exact hnx
    | @conflict d k f e id hf ha he =>
      refine ⟨by simp, ?_, ?_, by simp⟩
      · rcases refused_ids (rfl : (calls i).refused k e id = _) with q | q <;> rw [q] <;> simp
      · intro d' hd
        rcases refused_ids (rfl : (calls i).refused k e id = _) with q | q <;> rw [q] at hd <;> cases hd
    | error => exact ⟨by simp, by simp, by simp, by simp⟩
    | @reload id k =>
      have hdx' : getDoc σ₁.v.db nv.name.collection x = some dx := hdx
      rw [show id = x from ht, hdx']
      exact ⟨by simp, by simp [reloaded], by simp [reloaded], by simp⟩
    | push => exact ht.elim
    | pushFails => exact ht.elim

/-! ## By id -/

def IdInv (x : Bytes) : EntryPhase → Prop
  | .start => True
  | .fetching _ => False
  | .trying d _ => d.header.id = x
  | .reloading id _ => id = x
  | _ => True

theorem entry_byId {s : Schema} {S : Bytes → Prop} {nv : View} {calls : Nat → EntryCall} {σ₀ σ : EntrySys}
    {P : VSys → Prop} {es} {x : Bytes} {i : Nat} (hS : CollisionFree s.digest S)
    (hc : CallsIn S calls) (h0 : EntryStart s S nv σ₀)
    (hr : (calls i).ref = .id x) (h : EntryExec s S nv calls P σ₀ es σ) :
    IdInv x (σ.callers i) := by
  induction h with
  | nil _ => rw [h0.callers i]; trivial
  | @snoc es σ1 e σ2 hex hs hP ih =>
    have hinv := entry_exec_inv hS hc h0 hex
    cases hs with
    | transaction hw ha htid => exact ih
    | background hb hd => exact ih
    | @caller j ev v' p' hm =>
      by_cases hj : i = j
      · subst hj
        simp only [upd_self]
        generalize hph : σ1.callers i = ph at hm ih
        cases hm with
        | @lookup key' hr' => rw [hr] at hr'; cases hr'
        | fetch => exact ih.elim
        | @get id hr' =>
          rw [hr] at hr'
          cases hr'
          cases hg : getDoc σ1.v.db nv.name.collection x with
          | none => simp only [EntryCall.loaded]; split <;> trivial
          | some d =>
            simp only [EntryCall.loaded]
            split
            · exact (hinv.docs _ _ _ hg).1
            · trivial
        | accept => trivial
        | @conflict d k f e id hf ha he =>
          obtain ⟨q1, -⟩ := prepare_conflict hinv.docs ha he
          have ih' : d.header.id = x := ih
          rcases refused_ids (rfl : (calls i).refused k e id = _) with q | q <;> rw [q]
          · exact q1.trans ih'
          · trivial
        | error => trivial
        | @reload id k =>
          rw [show id = x from ih]
          cases hg : getDoc σ1.v.db nv.name.collection x with
          | none => trivial
          | some d => exact (hinv.docs _ _ _ hg).1
        | push => trivial
        | pushFails => trivial
      · simp only [upd_ne _ _ hj]
        exact ih

/-- **C69.** A call that names a document by its id updates and returns only that document, unless it inserts one;
it goes on to insert, or returns nothing, only when nothing is stored under the id. -/
theorem C69_by_id (s : Schema) (S : Bytes → Prop) (hS : CollisionFree s.digest S) (nv : View)
    (calls : Nat → EntryCall) (hc : CallsIn S calls) (P : VSys → Prop) (σ₀ σ₁ σ₂ : EntrySys)
    (es : List (Option (Nat × EntryEvent))) (h0 : EntryStart s S nv σ₀) (h : EntryExec s S nv calls P σ₀ es σ₁)
    (i : Nat) (e : EntryEvent) (x : Bytes) (hr : (calls i).ref = .id x)
    (hs : EntryStep s S nv calls σ₁ (some (i, e)) σ₂) :
    (∀ d, σ₂.callers i = .returned (some d) → e ≠ .inserted → d.header.id = x) ∧
    (e = .updated → ∃ f d d', (calls i).update = some f ∧ (σ₁.v.docs nv).get x = some d ∧
      (σ₂.v.docs nv).get x = some d' ∧ d'.contents = f (times i .refused es) d.contents) ∧
    (σ₂.callers i = .inserting ∨ σ₂.callers i = .returned none → (σ₁.v.docs nv).get x = none) := by
  have hinv := entry_exec_inv hS hc h0 h
  have ht := entry_byId hS hc h0 hr h
  have hs0 := hs
  cases hs with
  | @caller _ _ v' p' hm =>
    simp only [upd_self]
    generalize hph : σ₁.callers i = ph at hm ht
    cases hm with
    | @lookup key' hr' => rw [hr] at hr'; cases hr'
    | fetch => exact ht.elim
    | @get id hr' =>
      rw [hr] at hr'
      cases hr'
      cases hg : getDoc σ₁.v.db nv.name.collection x with
      | none =>
        refine ⟨?_, by simp, fun _ => hg⟩
        intro d hd
        simp only [EntryCall.loaded] at hd
        split at hd <;> cases hd
      | some d0 =>
        refine ⟨?_, by simp, ?_⟩
        · intro d hd _
          simp only [EntryCall.loaded] at hd
          split at hd <;> cases hd
          exact (hinv.docs _ _ _ hg).1
        · intro hd
          simp only [EntryCall.loaded] at hd
          split at hd <;> simp at hd
    | @accept d k f tid t ch rs hf ha htid =>
      obtain ⟨f', d0, d1, p1, p2, p3, p4, p5, p6, -⟩ :=
        C69_update_applies s S hS nv calls hc _ σ₀ σ₁ _ es h0 h i hs0
      simp only [upd_self] at p6
      obtain ⟨q1, q2, -⟩ := hinv.held i d k hph
      obtain ⟨hd, d2, rfl, hg, hrev, hnew, hframe⟩ :=
        prepare_update hS hinv.docs ((hc i).1 f hf k _ q2) ha
      have hw : d1.header = hd := by simp [written] at p6; rw [← p6]
      have hid : hd.id = d.header.id := by
        have := prepare_docsWF hS hinv.docs
          (single_writes (by intro y hy; cases hy; exact (hc i).1 f hf k _ q2)) ha _ _ _ hnew
        exact this.1
      have hx : d0.header.id = x := by rw [← p3, hw, hid]; exact ht
      rw [hx] at p2 p5
      refine ⟨?_, fun _ => ⟨f', d0, d1, p1, p2, p5, p4⟩, by rw [p6]; simp⟩
      intro dd hdd _
      rw [p6] at hdd
      cases hdd
      rw [p3, hx]
    | @conflict d k f e id hf ha he =>
      rcases refused_ids (rfl : (calls i).refused k e id = _) with q | q <;> rw [q] <;>
        exact ⟨by simp, by simp, by simp⟩
    | error => exact ⟨by simp, by simp, by simp⟩
    | @reload id k =>
      rw [show id = x from ht]
      cases hg : getDoc σ₁.v.db nv.name.collection x with
      | none => exact ⟨by simp [reloaded], by simp, fun _ => hg⟩
      | some d => exact ⟨by simp [reloaded], by simp, by simp [reloaded]⟩
    | @push oid y tid t ch rs hx ha htid =>
      obtain ⟨h, rfl, q1, q2, q3⟩ := prepare_insert ha
      exact ⟨by simp, by simp, by simp [written]⟩
    | pushFails => exact ⟨by simp, by simp, by simp⟩

/-! ## The name stays free -/

/-- No document has the name. -/
def NameFree (nv : View) (key : Bytes) (v : VSys) : Prop := ∀ id d, (v.docs nv).get id = some d → ¬ HasName nv d key

def FreeInv (call : EntryCall) : EntryPhase → Prop
  | .start => True
  | .fetching ids => ids = []
  | .trying _ _ => False
  | .reloading _ _ => False
  | .inserting => True
  | .returned none => call.insert = none
  | .returned (some _) => True
  | .failed _ => True

theorem namedIds_free {s : Schema} {S : Bytes → Prop} {nv : View} {calls : Nat → EntryCall} {σ : EntrySys}
    (hdv : DistinctViews s) (hv : nv ∈ s.views) (hu : nv.policy = .unique) (hi : EntryInv s S nv calls σ)
    {key : Bytes} (hn : NameFree nv key σ.v) : namedIds σ.v.db.trees nv key = [] := by
  obtain ⟨h1, h2⟩ := namedIds_spec hdv hv hu hi key
  cases hl : namedIds σ.v.db.trees nv key with
  | nil => rfl
  | cons a l =>
    obtain ⟨d, q1, q2⟩ := (h2 a).mp (by rw [hl]; simp)
    exact absurd q2 (hn a d q1)

theorem free_loaded {call : EntryCall} : FreeInv call (call.loaded none) := by
  simp only [EntryCall.loaded]
  split
  · trivial
  · show call.insert = none
    cases hu : call.insert
    · rfl
    · simp [hu] at *

theorem free_step {s : Schema} {S : Bytes → Prop} {nv : View} {calls : Nat → EntryCall} {σ1 : EntrySys}
    {key : Bytes} {i : Nat} {ev v' p'} (hdv : DistinctViews s) (hv : nv ∈ s.views)
    (hu : nv.policy = .unique) (hr : (calls i).ref = .name key) (hinv : EntryInv s S nv calls σ1)
    (hP : NameFree nv key σ1.v) (ih : FreeInv (calls i) (σ1.callers i))
    (hm : EntryMove s nv (calls i) σ1.v (σ1.callers i) ev v' p') : FreeInv (calls i) p' := by
  generalize hph : σ1.callers i = ph at hm ih
  cases hm with
  | @lookup key' hr' =>
    rw [hr] at hr'
    cases hr'
    exact namedIds_free hdv hv hu hinv hP
  | @fetch ids =>
    rw [show ids = [] from ih, firstDoc_nil]
    exact free_loaded
  | @get id hr' => rw [hr] at hr'; cases hr'
  | accept => exact ih.elim
  | conflict => exact ih.elim
  | error => trivial
  | reload => exact ih.elim
  | @push oid x tid t ch rs hx ha htid =>
    obtain ⟨h, rfl, -⟩ := prepare_insert ha
    trivial
  | pushFails => trivial

theorem entry_free {s : Schema} {S : Bytes → Prop} {nv : View} {calls : Nat → EntryCall} {σ₀ σ : EntrySys}
    {es} {key : Bytes} {i : Nat} (hS : CollisionFree s.digest S) (hdv : DistinctViews s) (hv : nv ∈ s.views)
    (hu : nv.policy = .unique) (hc : CallsIn S calls) (h0 : EntryStart s S nv σ₀)
    (hr : (calls i).ref = .name key) (h : EntryExec s S nv calls (NameFree nv key) σ₀ es σ) :
    FreeInv (calls i) (σ.callers i) := by
  induction h with
  | nil _ => rw [h0.callers i]; trivial
  | @snoc es σ1 e σ2 hex hs hP ih =>
    cases hs with
    | transaction hw ha htid => exact ih
    | background hb hd => exact ih
    | @caller j ev v' p' hm =>
      by_cases hj : i = j
      · subst hj
        simp only [upd_self]
        exact free_step hdv hv hu hr (entry_exec_inv hS hc h0 hex) hex.last ih hm
      · simp only [upd_ne _ _ hj]
        exact ih

/-- **C69.** If no document has the name until a step of the call: the step does not update anything, is not
refused, and does not return a document it only read; the call returns nothing only if it was given nothing to
insert; and if the step inserts a document that has the name, it is the only one with it. -/
theorem C69_inserts_if_free (s : Schema) (S : Bytes → Prop) (hS : CollisionFree s.digest S)
    (hdv : DistinctViews s) (nv : View) (hv : nv ∈ s.views) (hu : nv.policy = .unique)
    (calls : Nat → EntryCall) (hc : CallsIn S calls) (σ₀ σ₁ σ₂ : EntrySys)
    (es : List (Option (Nat × EntryEvent))) (h0 : EntryStart s S nv σ₀) (key : Bytes)
    (h : EntryExec s S nv calls (NameFree nv key) σ₀ es σ₁) (i : Nat) (e : EntryEvent)
    (hr : (calls i).ref = .name key) (hs : EntryStep s S nv calls σ₁ (some (i, e)) σ₂) :
    e ≠ .updated ∧ e ≠ .refused ∧ (σ₂.callers i = .returned none → (calls i).insert = none) ∧
    (∀ d, σ₂.callers i = .returned (some d) → e = .inserted ∧ (σ₂.v.docs nv).get d.header.id = some d ∧
      ∀ id d', (σ₂.v.docs nv).get id = some d' → HasName nv d' key → d' = d ∧ id = d.header.id) := by
  have hinv := entry_exec_inv hS hc h0 h
  have ht := entry_free hS hdv hv hu hc h0 hr h
  have hP := h.last
  have hs0 := hs
  cases hs with
  | @caller _ _ v' p' hm =>
    have hfin := free_step hdv hv hu hr hinv hP ht hm
    simp only [upd_self]
    refine ⟨?_, ?_, ?_, ?_⟩
    · rintro rfl
      generalize hph : σ₁.callers i = ph at hm ht
      cases hm
      exact ht
    · rintro rfl
      generalize hph : σ₁.callers i = ph at hm ht
      cases hm
      exact ht
    · rintro rfl; exact hfin
    · intro d hd
      subst hd
      generalize hph : σ₁.callers i = ph at hm ht
      generalize hpp : EntryPhase.returned (some d) = p' at hm
      cases hm with
      | lookup => cases hpp
      | @fetch ids =>
        rw [show ids = [] from ht, firstDoc_nil] at hpp
        simp only [EntryCall.loaded] at hpp
        split at hpp <;> cases hpp
      | @get id hr' => rw [hr] at hr'; cases hr'
      | accept => exact ht.elim
      | conflict => exact ht.elim
      | error => cases hpp
      | reload => exact ht.elim
      | @push oid x tid t ch rs hx ha htid =>
        obtain ⟨h, rfl, q1, q2, q3⟩ := prepare_insert ha
        simp only [written, EntryPhase.returned.injEq, Option.some.injEq] at hpp
        subst hpp
        refine ⟨rfl, q2, ?_⟩
        intro id d' hd' hn
        by_cases e : id = h.id
        · subst e
          have : (t.docs nv.name.collection).get h.id = some d' := hd'
          rw [q2] at this
          cases this
          exact ⟨rfl, rfl⟩
        · exfalso
          have : (t.docs nv.name.collection).get id = some d' := hd'
          rw [q3 _ _ (fun h => e h.2)] at this
          exact hP id d' this hn
      | pushFails => cases hpp

end Bonsai.Store
