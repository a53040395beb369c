import Verif.Views.C75

/-!
# C75: when queries wait forever, and concrete runs
-/
set_option linter.unusedSimpArgs false
set_option linter.unusedVariables false

namespace Bonsai.Store.Wait
open Bonsai Bonsai.Names Bonsai.Store

variable {s : Schema} {A : List Operation → Prop}

/-- Executions without a restart: the history of the job manager goes on. -/
inductive Same (s : Schema) (A : List Operation → Prop) : QSys → QSys → Prop
  | refl (q) : Same s A q q
  | step {q q' q''} (h : Same s A q q') (hs : QStep s A q' q'') (hp : q'.evs <+: q''.evs) : Same s A q q''

theorem Same.exec {q q' : QSys} (h : Same s A q q') : QExec s A q q' := by
  induction h with
  | refl => exact .refl _
  | step _ hs _ ih => exact .step ih hs

theorem Same.trans {a b c : QSys} (h1 : Same s A a b) (h2 : Same s A b c) : Same s A a c := by
  induction h2 with
  | refl => exact h1
  | step _ hs hp ih => exact .step ih hs hp

theorem completed_keyed {st : Jobs.St VName (Option Nat)} {t : Jobs.Task VName} {r : Option Nat}
    {k : VName} (h : t.key ≠ some k) : (st.completed t r).keyed k = st.keyed k := by
  unfold Jobs.St.completed
  cases hk : t.key with
  | none => cases hs : st.senders t.id <;> simp only [hs]
  | some k' =>
    have : k ≠ k' := fun e => h (by rw [hk, e])
    cases hs : st.senders t.id <;> simp only [hs, Jobs.put_ne _ _ this]

theorem lookup_keyed {st : Jobs.St VName (Option Nat)} {k n : VName} {i : Nat}
    (h : st.keyed n = some i) : (st.lookup k).1.keyed n = some i := by
  cases hk : st.keyed k with
  | some id => simp only [Jobs.St.lookup, hk, Jobs.St.newHandle]; exact h
  | none =>
    have : n ≠ k := by rintro rfl; rw [hk] at h; cases h
    simp only [Jobs.St.lookup, hk, Jobs.St.newHandle, Jobs.St.enqueue, Jobs.put_ne _ _ this]
    exact h

/-- The job of a view has panicked and blocks its key. -/
def Blocked (q : QSys) (n : VName) (i : Nat) : Prop :=
  q.mgr.keyed n = some i ∧ Jobs.Panicked q.evs i

theorem blocked_step (hdv : DistinctViews s) {q q' : QSys} {n : VName} {i : Nat} (hi : QInv s q)
    (h : Blocked q n i) (hs : QStep s A q q') (hp : q.evs <+: q'.evs) : Blocked q' n i := by
  have hpan : Jobs.Panicked q'.evs i := hp.subset h.2
  refine ⟨?_, hpan⟩
  cases hs with
  | @complete pre post t v r hj hl =>
    have hself : (t, Work.ended v r) ∈ q.work := by rw [hj]; simp
    have hact := hi.active_work hself
    show (Jobs.St.completed _ t r).keyed n = some i
    rw [completed_keyed]
    · exact h.1
    · intro hk
      have := hi.mgr.keyed t hact n hk
      rw [h.1] at this
      cases this
      exact (hi.mgr.panickedBound _ h.2).2 t hact rfl
  | lookup => exact lookup_keyed h.1
  | background => exact lookup_keyed h.1
  | restart k =>
    exfalso
    have : Jobs.Panicked ([] : List (Jobs.Event VName (Option Nat))) i := hpan
    simp [Jobs.Panicked] at this
  | transaction => exact h.1
  | other => exact h.1
  | start => exact h.1
  | startPanics => exact h.1
  | scan => exact h.1
  | chunk => exact h.1
  | finish => exact h.1
  | fail => exact h.1
  | panic => exact h.1
  | call => exact h.1
  | read => exact h.1
  | check => exact h.1
  | receive => exact h.1

/-- In the loop, with a job or about to look one up. -/
def Phase.looping : Phase → Prop
  | .loop _ => True
  | .wait _ _ _ => True
  | _ => False

/-- The call is in its loop, and if it waits, then for job `i`. -/
def Stuck (x : Query) (i : Nat) : Prop :=
  x.phase.looping ∧ ∀ w id ch, x.phase = .wait w id ch → id = i

theorem getElem?_set_cases {l : List Query} {k p : Nat} {x y : Query} (hx : l[p]? = some x) :
    ((l.set k y)[p]? = some x ∧ k ≠ p) ∨ ((l.set k y)[p]? = some y ∧ k = p) := by
  rw [List.getElem?_set]
  have hlt : p < l.length := (List.getElem?_eq_some_iff.mp hx).1
  by_cases hk : k = p
  · subst hk; exact .inr ⟨by simp [hlt], rfl⟩
  · exact .inl ⟨by simp only [hk, if_false]; exact hx, hk⟩

theorem stuck_step (hdv : DistinctViews s) {q q' : QSys} {i p : Nat} {x : Query} (hi : QInv s q)
    (hb : Blocked q x.view.name i) (hx : q.queries[p]? = some x) (hblk : x.block = true)
    (hst : Stuck x i) (hs : QStep s A q q') (hp : q.evs <+: q'.evs) :
    ∃ y, q'.queries[p]? = some y ∧ y.view = x.view ∧ y.block = true ∧ Stuck y i := by
  have same : q'.queries = q.queries → ∃ y, q'.queries[p]? = some y ∧ y.view = x.view ∧
      y.block = true ∧ Stuck y i := fun e => ⟨x, by rw [e]; exact hx, rfl, hblk, hst⟩
  cases hs with
  | @read k z hz hph =>
    rcases getElem?_set_cases (k := k) (y := { z with phase := afterRead q.db.lastTid }) hx with
      ⟨h, _⟩ | ⟨_, rfl⟩
    · exact ⟨x, h, rfl, hblk, hst⟩
    · rw [hx] at hz; cases hz
      have := hst.1
      rw [hph] at this
      exact this.elim
  | @check k z w hz hph =>
    rcases getElem?_set_cases (k := k)
      (y := { z with phase := afterCheck (q.status z.view.name) w }) hx with ⟨h, _⟩ | ⟨_, rfl⟩
    · exact ⟨x, h, rfl, hblk, hst⟩
    · rw [hx] at hz; cases hz
      have := hst.1
      rw [hph] at this
      exact this.elim
  | @lookup k z w hz hph hl =>
    rcases getElem?_set_cases (k := k) (y := { z with
        phase := afterLookup z.block w (q.mgr.lookup z.view.name).2.1 (q.mgr.lookup z.view.name).2.2
        lookups := z.lookups + 1 }) hx with ⟨h, _⟩ | ⟨h, rfl⟩
    · exact ⟨x, h, rfl, hblk, hst⟩
    · rw [hx] at hz; cases hz
      refine ⟨_, h, rfl, hblk, ?_⟩
      have hid : (q.mgr.lookup x.view.name).2.1 = i := by
        simp only [Jobs.St.lookup, hb.1]
      unfold Stuck
      simp only [afterLookup, hblk, if_true]
      refine ⟨trivial, ?_⟩
      intro w' id ch e
      cases e
      exact hid
  | @receive k z w id ch r rest hz hph hr =>
    rcases getElem?_set_cases (k := k) (y := { z with phase := afterReceive w r }) hx with
      ⟨h, _⟩ | ⟨_, rfl⟩
    · exact ⟨x, h, rfl, hblk, hst⟩
    · exfalso
      rw [hx] at hz; cases hz
      have hid := hst.2 w id ch hph
      subst hid
      have hok := hi.queries x (List.mem_of_getElem? hx)
      unfold QueryOk at hok
      rw [hph] at hok
      obtain ⟨-, -, -, -, h4, -, -, -⟩ := hok
      rcases hi.mgr.waiting id ch h4 with ⟨_, _, _, e⟩ | ⟨r', e1, _⟩
      · rw [e] at hr; cases hr
      · rw [(hi.mgr.panickedBound id hb.2).1] at e1; cases e1
  | @call v block hv =>
    refine ⟨x, ?_, rfl, hblk, hst⟩
    show (q.queries ++ _)[p]? = some x
    rw [List.getElem?_append_left (List.getElem?_eq_some_iff.mp hx).1]
    exact hx
  | restart k =>
    exfalso
    have hnil : q.evs = [] := List.prefix_nil.mp hp
    have h2 := hb.2
    rw [hnil] at h2
    simp [Jobs.Panicked] at h2
  | transaction => exact same rfl
  | other => exact same rfl
  | start => exact same rfl
  | startPanics => exact same rfl
  | scan => exact same rfl
  | chunk => exact same rfl
  | finish => exact same rfl
  | fail => exact same rfl
  | panic => exact same rfl
  | complete => exact same rfl
  | background => exact same rfl

/-- **C75 violated**: when the mapping job of a view panics (for example in the user's `map` function),
every query that waits for it, and every later one that has to update the view, waits forever — until
the process is restarted. -/
theorem C75_violated_panic_blocks_view (s : Schema) (hdv : DistinctViews s) (A : List Operation → Prop)
    (v : View) (q₀ q q' : QSys) (hst : QStart v q₀) (he : QExec s A q₀ q)
    (pre post : List (Jobs.Task VName × Work)) (t : Jobs.Task VName) (j : MapJob)
    (hj : q.work = pre ++ (t, .mapping j) :: post) (hroom : q.evs.length + 1 < 2 ^ 64)
    (hs : Same s A (q.panicked t (pre ++ post)) q') (p : Nat) (x : Query)
    (hx : q.queries[p]? = some x) (hv : x.view.name = j.view.name) (hb : x.block = true)
    (hp : (∃ w, x.phase = .loop w) ∨ ∃ w ch, x.phase = .wait w t.id ch) :
    ∃ y, q'.queries[p]? = some y ∧ y.phase ≠ .done ∧ y.phase ≠ .failed := by
  have hi := qexec_inv hdv (qinv_start hst) he
  have hself : (t, Work.mapping j) ∈ q.work := by rw [hj]; simp
  have hi' : QInv s (q.panicked t (pre ++ post)) := qstep_inv (A := A) hdv hi (.panic hj hroom)
  have hblk : Blocked (q.panicked t (pre ++ post)) x.view.name t.id := by
    refine ⟨?_, by simp [QSys.panicked, Jobs.Panicked]⟩
    show q.mgr.keyed x.view.name = some t.id
    rw [hv]
    exact hi.mgr.keyed t (hi.active_work hself) _ (hi.keys _ hself)
  have hstuck : Stuck x t.id := by
    rcases hp with ⟨w, e⟩ | ⟨w, ch, e⟩
    · exact ⟨by rw [e]; trivial, by intro w' id ch e'; rw [e] at e'; cases e'⟩
    · exact ⟨by rw [e]; trivial, by intro w' id ch e'; rw [e] at e'; cases e'; rfl⟩
  have key : ∀ r, Same s A (q.panicked t (pre ++ post)) r → QInv s r ∧ Blocked r x.view.name t.id ∧
      ∃ y, r.queries[p]? = some y ∧ y.view = x.view ∧ y.block = true ∧ Stuck y t.id := by
    intro r hr
    induction hr with
    | refl => exact ⟨hi', hblk, x, hx, rfl, hb, hstuck⟩
    | step _ hs hp ih =>
      obtain ⟨i1, i2, y, i3, i4, i5, i6⟩ := ih
      refine ⟨qstep_inv hdv i1 hs, blocked_step hdv i1 i2 hs hp, ?_⟩
      obtain ⟨z, z1, z2, z3, z4⟩ := stuck_step hdv i1 (by rw [i4]; exact i2) i3 i5 i6 hs hp
      exact ⟨z, z1, z2.trans i4, z3, z4⟩
  obtain ⟨_, _, y, h1, _, _, h4⟩ := key q' hs
  refine ⟨y, h1, ?_, ?_⟩
  · intro e
    have := h4.1
    rw [e] at this
    exact this
  · intro e
    have := h4.1
    rw [e] at this
    exact this

/-- No job is answered any more. -/
def Silent (q : QSys) (x : Query) : Prop :=
  x.phase.looping ∧ ∀ w id ch, x.phase = .wait w id ch → q.mgr.inbox ch = []

theorem lookup_channel (st : Jobs.St VName (Option Nat)) (k : VName) :
    (st.lookup k).2.2 = st.channels ∧ (st.lookup k).1.inbox = st.inbox := by
  cases hk : st.keyed k with
  | some id => simp only [Jobs.St.lookup, hk, Jobs.St.newHandle]; exact ⟨trivial, trivial⟩
  | none => simp only [Jobs.St.lookup, hk, Jobs.St.newHandle, Jobs.St.enqueue]; exact ⟨trivial, trivial⟩

theorem silent_step (hdv : DistinctViews s) {q q' : QSys} {p : Nat} {x : Query} (hi : QInv s q)
    (hw : q.work = []) (h0 : q.workers = 0) (hx : q.queries[p]? = some x) (hblk : x.block = true)
    (hst : Silent q x) (hs : QStep s A q q') (hp : q.evs <+: q'.evs) (hne : q.evs ≠ []) :
    q'.work = [] ∧ q'.workers = 0 ∧ q'.evs ≠ [] ∧
      ∃ y, q'.queries[p]? = some y ∧ y.block = true ∧ Silent q' y := by
  have hne' : q'.evs ≠ [] := by
    intro e
    rw [e] at hp
    exact hne (List.prefix_nil.mp hp)
  have none_working : ∀ {pre post : List (Jobs.Task VName × Work)} {y}, q.work ≠ pre ++ y :: post := by
    intro pre post y e
    rw [hw] at e
    cases pre <;> cases e
  cases hs with
  | start hq hk hv hlt => rw [h0] at hlt; exact absurd hlt (Nat.not_lt_zero _)
  | startPanics hq hlt => rw [h0] at hlt; exact absurd hlt (Nat.not_lt_zero _)
  | scan hj => exact absurd hj none_working
  | chunk hj => exact absurd hj none_working
  | finish hj => exact absurd hj none_working
  | fail hj => exact absurd hj none_working
  | panic hj => exact absurd hj none_working
  | complete hj => exact absurd hj none_working
  | @read k z hz hph =>
    refine ⟨hw, h0, hne', ?_⟩
    rcases getElem?_set_cases (k := k) (y := { z with phase := afterRead q.db.lastTid }) hx with
      ⟨h, _⟩ | ⟨_, rfl⟩
    · exact ⟨x, h, hblk, hst⟩
    · rw [hx] at hz; cases hz
      have := hst.1
      rw [hph] at this
      exact this.elim
  | @check k z w hz hph =>
    refine ⟨hw, h0, hne', ?_⟩
    rcases getElem?_set_cases (k := k)
      (y := { z with phase := afterCheck (q.status z.view.name) w }) hx with ⟨h, _⟩ | ⟨_, rfl⟩
    · exact ⟨x, h, hblk, hst⟩
    · rw [hx] at hz; cases hz
      have := hst.1
      rw [hph] at this
      exact this.elim
  | @lookup k z w hz hph hl =>
    refine ⟨hw, h0, hne', ?_⟩
    obtain ⟨c1, c2⟩ := lookup_channel q.mgr z.view.name
    rcases getElem?_set_cases (k := k) (y := { z with
        phase := afterLookup z.block w (q.mgr.lookup z.view.name).2.1 (q.mgr.lookup z.view.name).2.2
        lookups := z.lookups + 1 }) hx with ⟨h, _⟩ | ⟨h, rfl⟩
    · refine ⟨x, h, hblk, hst.1, ?_⟩
      intro w' id ch e
      show (q.mgr.lookup z.view.name).1.inbox ch = []
      rw [c2]
      exact hst.2 w' id ch e
    · rw [hx] at hz; cases hz
      refine ⟨_, h, hblk, ?_⟩
      unfold Silent
      simp only [afterLookup, hblk, if_true]
      refine ⟨trivial, ?_⟩
      intro w' id ch e
      cases e
      show (q.mgr.lookup x.view.name).1.inbox _ = []
      rw [c2, c1]
      exact hi.mgr.fresh _ (Nat.le_refl _)
  | @receive k z w id ch r rest hz hph hr =>
    refine ⟨hw, h0, hne', ?_⟩
    rcases getElem?_set_cases (k := k) (y := { z with phase := afterReceive w r }) hx with
      ⟨h, _⟩ | ⟨_, rfl⟩
    · exact ⟨x, h, hblk, hst⟩
    · rw [hx] at hz; cases hz
      have := hst.2 w id ch hph
      rw [this] at hr
      cases hr
  | @call v block hv =>
    refine ⟨hw, h0, hne', x, ?_, hblk, hst⟩
    show (q.queries ++ _)[p]? = some x
    rw [List.getElem?_append_left (List.getElem?_eq_some_iff.mp hx).1]
    exact hx
  | @background v hv hz hl =>
    refine ⟨hw, h0, hne', x, hx, hblk, hst.1, ?_⟩
    intro w' id ch e
    show (q.mgr.lookup v.name).1.inbox ch = []
    rw [(lookup_channel q.mgr v.name).2]
    exact hst.2 w' id ch e
  | restart k => exact absurd rfl hne'
  | transaction => exact ⟨hw, h0, hne', x, hx, hblk, hst⟩
  | other => exact ⟨hw, h0, hne', x, hx, hblk, hst⟩

/-- **C75 violated**: every panic also ends a worker thread.  When the last one is gone, no query of any
view that has to wait ever returns. -/
theorem C75_violated_no_worker_left (s : Schema) (hdv : DistinctViews s) (A : List Operation → Prop)
    (v : View) (q₀ q q' : QSys) (hst : QStart v q₀) (he : QExec s A q₀ q) (hw : q.work = [])
    (h0 : q.workers = 0) (hne : q.evs ≠ []) (hs : Same s A q q') (p : Nat) (x : Query)
    (hx : q.queries[p]? = some x) (hb : x.block = true)
    (hp : (∃ w, x.phase = .loop w) ∨ ∃ w id ch, x.phase = .wait w id ch ∧ q.mgr.inbox ch = []) :
    ∃ y, q'.queries[p]? = some y ∧ y.phase ≠ .done ∧ y.phase ≠ .failed := by
  have hsil : Silent q x := by
    rcases hp with ⟨w, e⟩ | ⟨w, id, ch, e, hc⟩
    · exact ⟨by rw [e]; trivial, by intro w' id ch e'; rw [e] at e'; cases e'⟩
    · exact ⟨by rw [e]; trivial, by intro w' id ch e'; rw [e] at e'; cases e'; exact hc⟩
  have key : ∀ r, Same s A q r → QInv s r ∧ r.work = [] ∧ r.workers = 0 ∧ r.evs ≠ [] ∧
      ∃ y, r.queries[p]? = some y ∧ y.block = true ∧ Silent r y := by
    intro r hr
    induction hr with
    | refl => exact ⟨qexec_inv hdv (qinv_start hst) he, hw, h0, hne, x, hx, hb, hsil⟩
    | step _ hs hp ih =>
      obtain ⟨i1, i2, i3, i4, y, i5, i6, i7⟩ := ih
      obtain ⟨a, b, c, d⟩ := silent_step hdv i1 i2 i3 i5 i6 i7 hs hp i4
      exact ⟨qstep_inv hdv i1 hs, a, b, c, d⟩
  obtain ⟨_, _, _, _, y, h1, _, h4⟩ := key q' hs
  refine ⟨y, h1, ?_, ?_⟩
  · intro e
    have := h4.1
    rw [e] at this
    exact this
  · intro e
    have := h4.1
    rw [e] at this
    exact this

end Bonsai.Store.Wait
