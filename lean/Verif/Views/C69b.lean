import Verif.Views.C69

/-!
# C69: what a call of `entry(..)` does, in every execution
-/
set_option linter.unusedSimpArgs false
set_option linter.unusedVariables false

namespace Bonsai.Store
open Bonsai Bonsai.Names Bonsai.Query

/-- All steps of caller `i`. -/
def ownSteps (i : Nat) (es : List (Option (Nat × EntryEvent))) : Nat :=
  times i .updated es + times i .inserted es + times i .refused es + times i .read es + times i .gaveUp es

theorem times_snoc (i : Nat) (e : EntryEvent) (es : List (Option (Nat × EntryEvent))) (l : Option (Nat × EntryEvent)) :
    times i e (es ++ [l]) = times i e es + if l = some (i, e) then 1 else 0 := by
  unfold times
  rw [List.count_append]
  by_cases h : l = some (i, e)
  · simp [h]
  · simp [h, List.count_cons]

theorem EntryStart.inv {s : Schema} {S : Bytes → Prop} {nv : View} {calls : Nat → EntryCall} {σ : EntrySys}
    (h : EntryStart s S nv σ) : EntryInv s S nv calls σ :=
  ⟨h.past, h.docs, (by intro i d k e; rw [h.callers i] at e; cases e),
    (by intro i e; rw [h.callers i] at e; cases e), (by intro i d k e; rw [h.callers i] at e; cases e)⟩

theorem entry_exec_inv {s : Schema} {S : Bytes → Prop} {nv : View} {calls : Nat → EntryCall} {P : VSys → Prop}
    {σ σ' : EntrySys} {es} (hS : CollisionFree s.digest S) (hc : CallsIn S calls) (h0 : EntryStart s S nv σ)
    (h : EntryExec s S nv calls P σ es σ') : EntryInv s S nv calls σ' := by
  induction h with
  | nil _ => exact h0.inv
  | snoc _ hs _ ih => exact entry_step_inv hS hc ih hs

/-! ## Counting -/

/-- What the phase of a call tells about its steps so far. -/
def PhaseCount (call : EntryCall) (u n r rd g : Nat) : EntryPhase → Prop
  | .start => u = 0 ∧ n = 0 ∧ r = 0 ∧ rd = 0 ∧ g = 0
  | .fetching _ => u = 0 ∧ n = 0 ∧ r = 0 ∧ rd = 1 ∧ g = 0
  | .trying _ k => u = 0 ∧ n = 0 ∧ r = k ∧ rd ≤ k + 2 ∧ g = 0 ∧ k ≤ call.retry ∧ call.update.isSome
  | .reloading _ k => u = 0 ∧ n = 0 ∧ r = k ∧ rd ≤ k + 1 ∧ g = 0 ∧ k ≤ call.retry ∧ call.update.isSome ∧ 1 ≤ k
  | .inserting => u = 0 ∧ n = 0 ∧ r = 0 ∧ rd ≤ 2 ∧ g = 0 ∧ call.insert.isSome
  | .returned none => u = 0 ∧ n = 0 ∧ r ≤ call.retry ∧ rd ≤ r + 2 ∧ g = 0 ∧ (r = 0 → call.insert = none)
  | .returned (some _) => u + n ≤ 1 ∧ r ≤ call.retry ∧ rd ≤ r + 2 ∧ g = 0 ∧
      (u + n = 0 → r = 0 ∧ call.update = none) ∧ (n = 1 → r = 0 ∧ call.insert.isSome) ∧ (u = 1 → call.update.isSome)
  | .failed e => u = 0 ∧ n = 0 ∧ rd ≤ r + 2 ∧
      ((g = 0 ∧ r = call.retry + 1 ∧ e.conflictId.isSome ∧ rd ≤ r + 1) ∨ (g = 1 ∧ r ≤ call.retry))

theorem loaded_count {call : EntryCall} {o : Option Document} {rd : Nat} (h : rd ≤ 2) :
    PhaseCount call 0 0 0 rd 0 (call.loaded o) := by
  cases o with
  | some d =>
    simp only [EntryCall.loaded]
    split
    · exact ⟨rfl, rfl, rfl, h, rfl, Nat.zero_le _, by assumption⟩
    · refine ⟨by omega, Nat.zero_le _, h, rfl, fun _ => ⟨rfl, ?_⟩, by simp, by simp⟩
      cases hu : call.update
      · rfl
      · simp [hu] at *
  | none =>
    simp only [EntryCall.loaded]
    split
    · exact ⟨rfl, rfl, rfl, h, rfl, by assumption⟩
    · refine ⟨rfl, rfl, Nat.zero_le _, h, rfl, fun _ => ?_⟩
      cases hu : call.insert
      · rfl
      · simp [hu] at *

theorem prepare_written {s : Schema} {S : Bytes → Prop} (hS : CollisionFree s.digest S) {t t' : Trees} {c : QName}
    {h : Header} {x : Bytes} {ch : Changes} {rs : List OpResult} (hwf : DocsWF s.digest S t.docs) (hx : S x)
    (hp : prepare s t [⟨c, .update h x⟩] = .ok (t', ch, rs)) : ∃ d, written rs x = some d := by
  obtain ⟨hd, d0, rfl, -⟩ := prepare_update hS hwf hx hp
  exact ⟨_, rfl⟩

theorem insert_written {s : Schema} {t t' : Trees} {c : QName} {oid : Option Bytes} {x : Bytes} {ch : Changes}
    {rs : List OpResult} (hp : prepare s t [⟨c, .insert oid x⟩] = .ok (t', ch, rs)) : ∃ d, written rs x = some d := by
  obtain ⟨h, rfl, -⟩ := prepare_insert hp
  exact ⟨_, rfl⟩

theorem entry_count {s : Schema} {S : Bytes → Prop} {nv : View} {calls : Nat → EntryCall} {P : VSys → Prop}
    {σ σ' : EntrySys} {es} (hS : CollisionFree s.digest S) (hc : CallsIn S calls) (h0 : EntryStart s S nv σ)
    (h : EntryExec s S nv calls P σ es σ') (i : Nat) :
    PhaseCount (calls i) (times i .updated es) (times i .inserted es) (times i .refused es) (times i .read es)
      (times i .gaveUp es) (σ'.callers i) := by
  induction h with
  | nil _ => rw [h0.callers i]; exact ⟨rfl, rfl, rfl, rfl, rfl⟩
  | @snoc es σ1 e σ2 hex hs hP ih =>
    have hinv := entry_exec_inv hS hc h0 hex
    simp only [times_snoc]
    cases hs with
    | transaction hw ha htid => simpa using ih
    | background hb hd => simpa using ih
    | @caller j ev v' p' hm =>
      by_cases hj : i = j
      · subst hj
        simp only [upd_self, Option.some.injEq, Prod.mk.injEq, true_and]
        generalize hph : σ1.callers i = ph at hm ih
        cases hm with
        | lookup hr =>
          obtain ⟨h1, h2, h3, h4, h5⟩ := ih
          simp [PhaseCount, h1, h2, h3, h4, h5]
        | fetch =>
          obtain ⟨h1, h2, h3, h4, h5⟩ := ih
          simpa [h1, h2, h3, h4, h5] using loaded_count (call := calls i) (Nat.le_refl 2)
        | get hr =>
          obtain ⟨h1, h2, h3, h4, h5⟩ := ih
          simpa [h1, h2, h3, h4, h5] using loaded_count (call := calls i) (by decide : 1 ≤ 2)
        | @accept d k f tid t ch rs hf ha htid =>
          obtain ⟨h1, h2, h3, h4, h5, h6, h7⟩ := ih
          obtain ⟨dd, hw⟩ := prepare_written hS hinv.docs ((hc i).1 f hf k _ (hinv.held i d k hph).2.1) ha
          rw [hw]
          simp [PhaseCount, h1, h2, h3, h5, h6]
          exact ⟨h4, h7⟩
        | @conflict d k f e id hf ha he =>
          obtain ⟨h1, h2, h3, h4, h5, h6, h7⟩ := ih
          unfold EntryCall.refused
          have he' : e.conflictId.isSome := by rw [he]; rfl
          by_cases hk : k < (calls i).retry
          · simp only [hk, if_true]; simp [PhaseCount, h1, h2, h3, h5, h7]; omega
          · simp only [hk, if_false]; simp [PhaseCount, h1, h2, h3, h5, he']; omega
        | @error d k f e hf ha he =>
          obtain ⟨h1, h2, h3, h4, h5, h6, h7⟩ := ih
          simp [PhaseCount, h1, h2, h3, h5]; omega
        | @reload id k =>
          obtain ⟨h1, h2, h3, h4, h5, h6, h7, h8⟩ := ih
          cases hg : getDoc σ1.v.db nv.name.collection id with
          | none => simp [reloaded, PhaseCount, h1, h2, h3, h5]; omega
          | some d2 => simp [reloaded, PhaseCount, h1, h2, h3, h5, h7]; omega
        | @push oid x tid t ch rs hx ha htid =>
          obtain ⟨h1, h2, h3, h4, h5, h6⟩ := ih
          obtain ⟨dd, hw⟩ := insert_written ha
          rw [hw]
          simp [PhaseCount, h1, h2, h3, h5, h6, h4]
        | @pushFails oid x e hx ha =>
          obtain ⟨h1, h2, h3, h4, h5, h6⟩ := ih
          simp [PhaseCount, h1, h2, h3, h5]; omega
      · simp only [upd_ne _ _ hj, Option.some.injEq, Prod.mk.injEq]
        have : ¬ j = i := fun e => hj e.symm
        simpa [this] using ih

/-- The call is over. -/
def EntryPhase.Done : EntryPhase → Prop
  | .returned _ | .failed _ => True
  | _ => False

/-! ## The theorems -/

/-- **C69.** The moment an update is accepted: the update function was applied to the contents the document
has in the database at that very moment, the result replaces them, nothing else changes, and the document
returned is the one now stored. (`f` gets the number of attempts refused before.) -/
theorem C69_update_applies (s : Schema) (S : Bytes → Prop) (hS : CollisionFree s.digest S) (nv : View)
    (calls : Nat → EntryCall) (hc : CallsIn S calls) (P : VSys → Prop) (σ₀ σ₁ σ₂ : EntrySys)
    (es : List (Option (Nat × EntryEvent))) (h0 : EntryStart s S nv σ₀) (h : EntryExec s S nv calls P σ₀ es σ₁)
    (i : Nat) (hs : EntryStep s S nv calls σ₁ (some (i, .updated)) σ₂) :
    ∃ f d d', (calls i).update = some f ∧ (σ₁.v.docs nv).get d.header.id = some d ∧
      d'.header.id = d.header.id ∧ d'.contents = f (times i .refused es) d.contents ∧
      (σ₂.v.docs nv).get d.header.id = some d' ∧ σ₂.callers i = .returned (some d') ∧
      ∀ c id, ¬ (c = nv.name.collection ∧ id = d.header.id) →
        (σ₂.v.db.trees.docs c).get id = (σ₁.v.db.trees.docs c).get id := by
  have hinv := entry_exec_inv hS hc h0 h
  have hcnt := entry_count hS hc h0 h i
  have hinv2 := entry_step_inv hS hc hinv hs
  cases hs with
  | @caller _ _ v' p' hm =>
    generalize hph : σ₁.callers i = ph at hm hcnt
    cases hm with
    | @accept d k f tid t ch rs hf ha htid =>
      obtain ⟨h1, h2, h3, h4, h5, h6, h7⟩ := hcnt
      obtain ⟨hh1, hh2, -⟩ := hinv.held i d k hph
      have hx : S (f k d.contents) := (hc i).1 f hf k _ hh2
      obtain ⟨hd, d0, rfl, hg, hrev, hnew, hframe⟩ := prepare_update hS hinv.docs hx ha
      have hw0 := hinv.docs _ _ _ hg
      have hcont : d0.contents = d.contents := by
        apply hS _ _ hw0.2.2 hh2
        rw [← hw0.2.1, ← hh1, hrev]
      have hd0 : d0 = d := by
        have e1 : d0.header = d.header := by
          rcases hq : d0.header with ⟨a, b⟩
          rcases hq' : d.header with ⟨a', b'⟩
          have x1 := hw0.1
          have x2 := hrev
          rw [hq, hq'] at x1 x2
          simp only at x1 x2
          rw [x1, x2]
        cases d0; cases d
        simp_all
      subst hd0
      refine ⟨f, d0, ⟨hd, f k d0.contents⟩, hf, hg, ?_, by rw [h3], hnew, ?_, hframe⟩
      · exact (hinv2.docs _ _ _ hnew).1
      · simp [written, upd_self]

/-- **C69.** The moment a document is inserted: it is stored with the given contents under an id that nothing
was stored under, nothing else changes, and the document returned is the one now stored. -/
theorem C69_insert_fresh (s : Schema) (S : Bytes → Prop) (nv : View)
    (calls : Nat → EntryCall) (σ₁ σ₂ : EntrySys)
    (i : Nat) (hs : EntryStep s S nv calls σ₁ (some (i, .inserted)) σ₂) :
    ∃ oid x h, (calls i).insert = some (oid, x) ∧ (σ₁.v.docs nv).get h.id = none ∧
      (σ₂.v.docs nv).get h.id = some ⟨h, x⟩ ∧ σ₂.callers i = .returned (some ⟨h, x⟩) ∧
      (∀ id, oid = some id → h.id = id) ∧
      ∀ c id, ¬ (c = nv.name.collection ∧ id = h.id) →
        (σ₂.v.db.trees.docs c).get id = (σ₁.v.db.trees.docs c).get id := by
  cases hs with
  | @caller _ _ v' p' hm =>
    generalize hph : σ₁.callers i = ph at hm
    cases hm with
    | @push oid x tid t ch rs hx ha htid =>
      obtain ⟨h, rfl, h1, h2, h3⟩ := prepare_insert ha
      refine ⟨oid, x, h, hx, h1, h2, ?_, ?_, h3⟩
      · simp [written, upd_self]
      · rintro id rfl
        obtain ⟨t1, r, hex, e, -⟩ := prepare_one ha
        simp only [List.cons.injEq, and_true] at e
        subst e
        obtain ⟨h', e', -, hid, -⟩ := C23_insert_starts_at_zero s _ _ _ _ x _ hex
        cases e'
        exact hid id rfl

/-- **C69.** No other step of a call changes any document. -/
theorem C69_otherwise_unchanged (s : Schema) (S : Bytes → Prop) (nv : View)
    (calls : Nat → EntryCall) (σ₁ σ₂ : EntrySys) (i : Nat) (e : EntryEvent)
    (hs : EntryStep s S nv calls σ₁ (some (i, e)) σ₂) (hu : e ≠ .updated) (hn : e ≠ .inserted) :
    σ₂.v = σ₁.v := by
  cases hs with
  | @caller _ _ v' p' hm =>
    generalize hph : σ₁.callers i = ph at hm
    cases hm <;> first | rfl | exact absurd rfl hu | exact absurd rfl hn

/-- **C69.** A call writes at most once. When it returns a document it has written exactly once — an insert,
or an update if one was given — or it was not given an update and wrote nothing; when it returns nothing or
fails it wrote nothing. It is refused at most `retry + 1` times, and it reports the conflict only after that
many (`gaveUp` is any other error). -/
theorem C69_at_most_one_write (s : Schema) (S : Bytes → Prop) (hS : CollisionFree s.digest S) (nv : View)
    (calls : Nat → EntryCall) (hc : CallsIn S calls) (P : VSys → Prop) (σ₀ σ : EntrySys)
    (es : List (Option (Nat × EntryEvent))) (h0 : EntryStart s S nv σ₀) (h : EntryExec s S nv calls P σ₀ es σ)
    (i : Nat) :
    times i .updated es + times i .inserted es ≤ 1 ∧ times i .refused es ≤ (calls i).retry + 1 ∧
    (∀ d, σ.callers i = .returned (some d) →
      times i .updated es + times i .inserted es = 1 ∨
        (calls i).update = none ∧ times i .updated es + times i .inserted es = 0) ∧
    (σ.callers i = .returned none → times i .updated es + times i .inserted es = 0 ∧
      ((calls i).insert.isSome → 0 < times i .refused es)) ∧
    ∀ e, σ.callers i = .failed e → times i .updated es + times i .inserted es = 0 ∧
      (times i .gaveUp es = 0 → times i .refused es = (calls i).retry + 1 ∧ e.conflictId.isSome) := by
  have hcnt := entry_count hS hc h0 h i
  refine ⟨?_, ?_, ?_, ?_, ?_⟩
  · generalize σ.callers i = ph at hcnt
    match ph, hcnt with
    | .start, hh | .fetching _, hh | .trying _ _, hh | .reloading _ _, hh | .inserting, hh
    | .returned none, hh | .returned (some _), hh | .failed _, hh => simp only [PhaseCount] at hh; omega
  · generalize σ.callers i = ph at hcnt
    match ph, hcnt with
    | .start, hh | .fetching _, hh | .trying _ _, hh | .reloading _ _, hh | .inserting, hh
    | .returned none, hh | .returned (some _), hh | .failed _, hh => simp only [PhaseCount] at hh; omega
  · intro d hd
    rw [hd] at hcnt
    obtain ⟨h1, h2, h3, h4, h5, h6, h7⟩ := hcnt
    by_cases hz : times i .updated es + times i .inserted es = 0
    · exact .inr ⟨(h5 hz).2, hz⟩
    · left; omega
  · intro hd
    rw [hd] at hcnt
    obtain ⟨h1, h2, h3, h4, h5, h6⟩ := hcnt
    refine ⟨by omega, fun hi => ?_⟩
    apply Nat.pos_of_ne_zero
    intro e
    rw [h6 e] at hi
    cases hi
  · intro e hd
    rw [hd] at hcnt
    obtain ⟨h1, h2, h3, h4⟩ := hcnt
    refine ⟨by omega, fun hg => ?_⟩
    rcases h4 with h4 | h4
    · exact ⟨h4.2.1, h4.2.2.1⟩
    · omega

/-- **C69.** A call that is not over can always take a step, and takes at most `2 · retry + 3` in all. -/
theorem C69_terminates (s : Schema) (S : Bytes → Prop) (hS : CollisionFree s.digest S) (nv : View)
    (calls : Nat → EntryCall) (hc : CallsIn S calls) (P : VSys → Prop) (σ₀ σ : EntrySys)
    (es : List (Option (Nat × EntryEvent))) (h0 : EntryStart s S nv σ₀) (h : EntryExec s S nv calls P σ₀ es σ)
    (i : Nat) : ownSteps i es ≤ 2 * (calls i).retry + 3 ∧
      (¬ (σ.callers i).Done → ∃ e σ', EntryStep s S nv calls σ (some (i, e)) σ') := by
  have hcnt := entry_count hS hc h0 h i
  have hinv := entry_exec_inv hS hc h0 h
  refine ⟨?_, ?_⟩
  · unfold ownSteps
    generalize σ.callers i = ph at hcnt
    match ph, hcnt with
    | .start, hh | .fetching _, hh | .trying _ _, hh | .reloading _ _, hh | .inserting, hh
    | .returned none, hh | .returned (some _), hh | .failed _, hh => simp only [PhaseCount] at hh; omega
  · intro hnd
    have mk : ∀ {e v' p'}, EntryMove s nv (calls i) σ.v (σ.callers i) e v' p' →
        ∃ e σ', EntryStep s S nv calls σ (some (i, e)) σ' := fun hm => ⟨_, _, .caller hm⟩
    cases hph : σ.callers i with
    | start =>
      rw [hph] at mk
      cases hr : (calls i).ref with
      | name key => exact mk (.lookup hr)
      | id id => exact mk (.get hr)
    | fetching ids => rw [hph] at mk; exact mk .fetch
    | trying d k =>
      rw [hph] at mk
      obtain ⟨f, hf⟩ := Option.isSome_iff_exists.mp (hinv.held i d k hph).2.2
      cases hp : prepare s σ.v.db.trees [⟨nv.name.collection, .update d.header (f k d.contents)⟩] with
      | ok r => obtain ⟨t, ch, rs⟩ := r; exact mk (.accept hf hp (Nat.le_refl _))
      | error e =>
        cases he : e.conflictId with
        | some id => exact mk (.conflict hf hp he)
        | none => exact mk (.error hf hp he)
    | reloading id k => rw [hph] at mk; exact mk .reload
    | inserting =>
      rw [hph] at mk
      obtain ⟨⟨oid, x⟩, hx⟩ := Option.isSome_iff_exists.mp (hinv.inserting i hph)
      cases hp : prepare s σ.v.db.trees [⟨nv.name.collection, .insert oid x⟩] with
      | ok r => obtain ⟨t, ch, rs⟩ := r; exact mk (.push hx hp (Nat.le_refl _))
      | error e => exact mk (.pushFails hx hp)
    | returned d => rw [hph] at hnd; exact absurd trivial hnd
    | failed e => rw [hph] at hnd; exact absurd trivial hnd

end Bonsai.Store
