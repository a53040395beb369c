import Verif.Views.WaitInv

/-!
# C75: a query that updates its view first waits long enough, and not too long
-/
set_option linter.unusedSimpArgs false
set_option linter.unusedVariables false

namespace Bonsai.Store.Wait
open Bonsai Bonsai.Names Bonsai.Store

variable {s : Schema} {A : List Operation → Prop}

/-- Transaction ids only grow. -/
theorem qstep_lastTid {q q' : QSys} (hs : QStep s A q q') : q.db.lastTid ≤ q'.db.lastTid := by
  cases hs with
  | transaction ha hp htid => rw [lastTid_qcommit]; omega
  | other htid => rw [lastTid_qcommit]; omega
  | @chunk pre post t v m p tid bs es dm hj hp hb htid hm =>
    have := lastTid_qcommit q tid none (chunkTrees q.db.trees v (chunkIds p) es dm)
    exact Nat.le_trans (Nat.le_trans htid (Nat.le_succ _)) (Nat.le_of_eq this.symm)
  | start => exact Nat.le_refl _
  | startPanics => exact Nat.le_refl _
  | scan => exact Nat.le_refl _
  | finish => exact Nat.le_refl _
  | fail => exact Nat.le_refl _
  | panic => exact Nat.le_refl _
  | complete => exact Nat.le_refl _
  | call => exact Nat.le_refl _
  | read => exact Nat.le_refl _
  | check => exact Nat.le_refl _
  | lookup => exact Nat.le_refl _
  | receive => exact Nat.le_refl _
  | background => exact Nat.le_refl _
  | restart => exact Nat.le_refl _

theorem qexec_lastTid {q q' : QSys} (he : QExec s A q q') : q.db.lastTid ≤ q'.db.lastTid := by
  induction he with
  | refl => exact Nat.le_refl _
  | step _ hs ih => exact Nat.le_trans ih (qstep_lastTid hs)

/-- At some moment since `q₁` a mapping job of the view has reported a transaction at least as new as
the last one in `q₁` (or there was none then). -/
def Ready (s : Schema) (A : List Operation → Prop) (v : View) (q₁ q : QSys) : Prop :=
  ∃ q', QExec s A q₁ q' ∧ QExec s A q' q ∧
    (q₁.db.lastTid = 0 ∨ ∃ m ∈ q'.results v.name, q₁.db.lastTid ≤ m)

theorem Ready.step {v : View} {q₁ q q' : QSys} (h : Ready s A v q₁ q) (hs : QStep s A q q') :
    Ready s A v q₁ q' := by
  obtain ⟨a, b, c, d⟩ := h
  exact ⟨a, b, .step c hs, d⟩

/-- What is known of a call that began after `q₁`. -/
def SincePhase (s : Schema) (A : List Operation → Prop) (v : View) (block : Bool) (q₁ q : QSys) :
    Phase → Prop
  | .fresh => True
  | .check w => q₁.db.lastTid ≤ w
  | .loop w => q₁.db.lastTid ≤ w
  | .wait w _ _ => q₁.db.lastTid ≤ w
  | .done => block = true → Ready s A v q₁ q
  | .failed => True

def Since (s : Schema) (A : List Operation → Prop) (q₁ q : QSys) (x : Query) : Prop :=
  SincePhase s A x.view x.block q₁ q x.phase

theorem Since.frame {q₁ q q' : QSys} {x : Query} (h : Since s A q₁ q x) (hs : QStep s A q q') :
    Since s A q₁ q' x := by
  unfold Since at *
  cases hp : x.phase <;> rw [hp] at h <;> first | exact h | exact fun hb => (h hb).step hs

/-- The call at place `p` has not begun in `q₁`. -/
def NotBegun (q₁ : QSys) (p : Nat) : Prop :=
  ∀ x, q₁.queries[p]? = some x → x.phase = .fresh

theorem since_step (hdv : DistinctViews s) {q₁ q q' : QSys} {p : Nat} (hi : QInv s q)
    (he : QExec s A q₁ q) (h : ∀ x, q.queries[p]? = some x → Since s A q₁ q x)
    (hs : QStep s A q q') : ∀ x, q'.queries[p]? = some x → Since s A q₁ q' x := by
  have htid := qexec_lastTid he
  have same : q'.queries = q.queries → ∀ x, q'.queries[p]? = some x → Since s A q₁ q' x := by
    intro e x hx
    rw [e] at hx
    exact (h x hx).frame hs
  have one : ∀ (k : Nat) (x y : Query), q.queries[k]? = some x → q'.queries = q.queries.set k y →
      (Since s A q₁ q x → Since s A q₁ q' y) →
      ∀ z, q'.queries[p]? = some z → Since s A q₁ q' z := by
    intro k x y hx e hy z hz
    rw [e, List.getElem?_set] at hz
    by_cases hk : k = p
    · subst hk
      have hlt : k < q.queries.length := (List.getElem?_eq_some_iff.mp hx).1
      simp only [if_true, hlt, Option.some.injEq] at hz
      subst hz
      exact hy (h x hx)
    · simp only [hk, if_false] at hz
      exact (h z hz).frame hs
  cases hs with
  | @read k x hx hp =>
    refine one k x _ hx rfl ?_
    intro _
    suffices hg : ∀ q', QStep s A q q' → SincePhase s A x.view x.block q₁ q' (afterRead q.db.lastTid) from
      hg _ (.read hx hp)
    intro q' hs'
    unfold afterRead
    by_cases hz : q.db.lastTid = 0
    · rw [if_pos hz]
      intro _
      exact ⟨q, he, .step (.refl _) hs', .inl (by omega)⟩
    · rw [if_neg hz]; exact htid
  | @check k x w hx hp =>
    refine one k x _ hx rfl ?_
    intro hsx
    unfold Since at hsx
    rw [hp] at hsx
    have hsx : q₁.db.lastTid ≤ w := hsx
    suffices hg : ∀ q', QStep s A q q' → SincePhase s A x.view x.block q₁ q' (afterCheck (q.status x.view.name) w) from
      hg _ (.check hx hp)
    intro q' hs'
    unfold afterCheck
    by_cases hz : needsReindex (q.status x.view.name) w = true
    · rw [if_pos hz]; exact hsx
    · rw [if_neg hz]
      intro _
      cases hst : q.status x.view.name with
      | none => rw [hst] at hz; exact absurd rfl hz
      | some m =>
        rw [hst] at hz
        simp only [needsReindex, decide_eq_true_eq] at hz
        exact ⟨q, he, .step (.refl _) hs', .inr ⟨m, (hi.status _ _ hst).1, by omega⟩⟩
  | @lookup k x w hx hp hl =>
    refine one k x _ hx rfl ?_
    intro hsx
    unfold Since at hsx
    rw [hp] at hsx
    show SincePhase s A x.view x.block q₁ _ (afterLookup x.block w _ _)
    unfold afterLookup
    by_cases hb : x.block = true
    · rw [if_pos hb]; exact hsx
    · rw [if_neg hb]; exact fun hb' => absurd hb' hb
  | @receive k x w id ch r rest hx hp hr =>
    refine one k x _ hx rfl ?_
    intro hsx
    unfold Since at hsx
    rw [hp] at hsx
    have hsx : q₁.db.lastTid ≤ w := hsx
    have hok := hi.queries x (List.mem_of_getElem? hx)
    unfold QueryOk at hok
    rw [hp] at hok
    obtain ⟨-, -, -, -, h4, -, -, h7⟩ := hok
    have hone : q.mgr.inbox ch = [r] := by
      rcases hi.mgr.waiting id ch h4 with ⟨_, _, _, e⟩ | ⟨r', _, e2, _⟩
      · rw [e] at hr; cases hr
      · rw [hr] at e2; cases e2; exact hr
    suffices hg : ∀ q', QStep s A q q' → SincePhase s A x.view x.block q₁ q' (afterReceive w r) from
      hg _ (.receive hx hp hr)
    intro q' hs'
    cases r with
    | none => trivial
    | some m =>
      unfold afterReceive
      by_cases hm : w ≤ m
      · simp only [hm, if_true]
        intro _
        exact ⟨q, he, .step (.refl _) hs', .inr ⟨m, (h7 m hone).1, by omega⟩⟩
      · simp only [hm, if_false]; exact hsx
  | @call v block hv =>
    intro x hx
    have hx : (q.queries ++ [⟨v, block, .fresh, 0⟩])[p]? = some x := hx
    rw [List.getElem?_append] at hx
    by_cases hlt : p < q.queries.length
    · rw [if_pos hlt] at hx
      exact (h x hx).frame (.call hv)
    · rw [if_neg hlt] at hx
      have : x = ⟨v, block, .fresh, 0⟩ := by
        rcases hn : p - q.queries.length with _ | n <;> rw [hn] at hx <;> simp at hx
        exact hx.symm
      subst this
      trivial
  | restart n =>
    intro x hx
    have hx : (q.queries.map Query.stop)[p]? = some x := hx
    rw [List.getElem?_map, Option.map_eq_some_iff] at hx
    obtain ⟨y, hy, rfl⟩ := hx
    have := (h y hy).frame (.restart n)
    unfold Since at this ⊢
    show SincePhase s A y.view y.block q₁ _ (Query.stop y).phase
    unfold Query.stop
    cases hp : y.phase with
    | done => rw [hp] at this; exact this
    | fresh => trivial
    | check => trivial
    | loop => trivial
    | wait => trivial
    | failed => trivial
  | transaction => exact same rfl
  | other => exact same rfl
  | start => exact same rfl
  | startPanics => exact same rfl
  | scan => exact same rfl
  | chunk => exact same rfl
  | finish => exact same rfl
  | fail => exact same rfl
  | panic => exact same rfl
  | complete => exact same rfl
  | background => exact same rfl

/-- When a blocking call returns, a mapping job has reported a transaction at least as new as the last
one before the call began. -/
theorem done_ready (hdv : DistinctViews s) {q₁ q₂ : QSys} {p : Nat} {x : Query} (hi : QInv s q₁)
    (hn : NotBegun q₁ p) (he : QExec s A q₁ q₂) (hx : q₂.queries[p]? = some x) (hb : x.block = true)
    (hd : x.phase = .done) : Ready s A x.view q₁ q₂ := by
  have key : ∀ q, QExec s A q₁ q → ∀ y, q.queries[p]? = some y → Since s A q₁ q y := by
    intro q hq
    induction hq with
    | refl =>
      intro y hy
      unfold Since
      rw [hn y hy]
      trivial
    | step hq hs ih => exact since_step hdv (qexec_inv hdv hi hq) hq ih hs
  have := key q₂ he x hx
  unfold Since at this
  rw [hd] at this
  exact this hb

/-- **C75**, first part: a query that has not begun in `q₁` has updated its view in `q₂` and reads it in
`q₃`.  Then for every document the view it reads shows the document as it was in some committed state
after `q₁` — whatever writers, mapping jobs, other queries, failures, panics and restarts did meanwhile.
(C31 without the assumption that the wait was long enough: that is what the wait loop is proved to do.) -/
theorem C75_query_waits_long_enough (s : Schema) (hdv : DistinctViews s) (A : List Operation → Prop)
    (v : View) (hv : v ∈ s.views) (q₀ q₁ q₂ q₃ : QSys) (p : Nat) (n : Nat) (hst : QStart v q₀)
    (h1 : QExec s A q₀ q₁) (hn : NotBegun q₁ p) (h2 : QExec s A q₁ q₂)
    (hx : q₂.queries[p]? = some ⟨v, true, .done, n⟩) (h3 : QExec s A q₂ q₃) (id : Bytes) :
    ∃ τ, VExec s q₁.sys τ ∧ VExec s τ q₃.sys ∧
      ∀ key, found (q₃.db.trees.entries v.name) key id =
        expect v ((τ.db.trees.docsOf v).get id) key := by
  obtain ⟨q', a, b, c⟩ := done_ready hdv (qexec_inv hdv (qinv_start hst) h1) hn h2 hx rfl rfl
  exact C31_query_sees_earlier_commits s hdv v hv q₀.sys q₁.sys q'.sys q₃.sys hst.sys (qexec_sys h1)
    (qexec_sys a) (qexec_sys (b.trans h3)) c id

/-- **C75**: if nothing else commits while the query runs, it reads exactly the map of the documents
that were committed when it began. -/
theorem C75_quiet_query_is_exact (s : Schema) (hdv : DistinctViews s) (A : List Operation → Prop)
    (v : View) (hv : v ∈ s.views) (q₀ q₁ q₂ : QSys) (p : Nat) (n : Nat) (hst : QStart v q₀)
    (h1 : QExec s A q₀ q₁) (hn : NotBegun q₁ p) (h2 : QExec s A q₁ q₂)
    (hx : q₂.queries[p]? = some ⟨v, true, .done, n⟩)
    (hquiet : ∀ τ, VExec s q₁.sys τ → VExec s τ q₂.sys →
      τ.db.trees.docsOf v = q₁.db.trees.docsOf v) (id key : Bytes) :
    found (q₂.db.trees.entries v.name) key id = expect v ((q₁.db.trees.docsOf v).get id) key := by
  obtain ⟨τ, a, b, c⟩ := C75_query_waits_long_enough s hdv A v hv q₀ q₁ q₂ q₂ p n hst h1 hn h2 hx
    (.refl _) id
  rw [c key, hquiet τ a b]

/-- **C75**, second part: no call ever asks for more than two mapping jobs, however many transactions
commit meanwhile. -/
theorem C75_at_most_two_jobs (s : Schema) (hdv : DistinctViews s) (A : List Operation → Prop)
    (v : View) (q₀ q : QSys) (hst : QStart v q₀) (he : QExec s A q₀ q) (x : Query)
    (hx : x ∈ q.queries) : x.lookups ≤ 2 := by
  have hok := (qexec_inv hdv (qinv_start hst) he).queries x hx
  unfold QueryOk at hok
  cases hp : x.phase <;> rw [hp] at hok
  · have : x.lookups = 0 := hok
    omega
  · have := hok.1
    omega
  · have := hok.2.2.1
    omega
  · exact hok.2.2.2.1
  · exact hok
  · exact hok

/-- **C75**: a mapping job never finds the database without a transaction (where it would panic). -/
theorem C75_mapper_finds_a_transaction (s : Schema) (hdv : DistinctViews s) (A : List Operation → Prop)
    (v : View) (q₀ q : QSys) (hst : QStart v q₀) (he : QExec s A q₀ q) (ha : q.mgr.active ≠ []) :
    q.db.lastTid ≠ 0 :=
  (qexec_inv hdv (qinv_start hst) he).nonempty ha

/-- **C75**: the recorded status of a view never goes back while the process runs. -/
theorem C75_status_never_goes_back (s : Schema) (hdv : DistinctViews s) (A : List Operation → Prop)
    (v : View) (q₀ q q' : QSys) (hst : QStart v q₀) (he : QExec s A q₀ q) (hs : QStep s A q q')
    (n : VName) (m : Nat) (hm : q.status n = some m) :
    (∃ m', q'.status n = some m' ∧ m ≤ m') ∨ (q'.status n = none ∧ q'.evs = [] ∧ q'.work = []) := by
  have hi := qexec_inv hdv (qinv_start hst) he
  cases hs with
  | @finish pre post t w m' hj =>
    have hself : (t, Work.mapping ⟨w, m', some []⟩) ∈ q.work := by rw [hj]; simp
    refine .inl ?_
    show ∃ k, upd q.status w.name (some m') n = some k ∧ m ≤ k
    by_cases e : n = w.name
    · subst e
      rw [upd_self]
      exact ⟨m', rfl, (hi.status _ _ hm).2.2 _ hself (hi.keys _ hself)⟩
    · rw [upd_ne _ _ e]; exact ⟨m, hm, Nat.le_refl _⟩
  | restart k => exact .inr ⟨rfl, rfl, rfl⟩
  | transaction => exact .inl ⟨m, hm, Nat.le_refl _⟩
  | other => exact .inl ⟨m, hm, Nat.le_refl _⟩
  | start => exact .inl ⟨m, hm, Nat.le_refl _⟩
  | startPanics => exact .inl ⟨m, hm, Nat.le_refl _⟩
  | scan => exact .inl ⟨m, hm, Nat.le_refl _⟩
  | chunk => exact .inl ⟨m, hm, Nat.le_refl _⟩
  | fail => exact .inl ⟨m, hm, Nat.le_refl _⟩
  | panic => exact .inl ⟨m, hm, Nat.le_refl _⟩
  | complete => exact .inl ⟨m, hm, Nat.le_refl _⟩
  | call => exact .inl ⟨m, hm, Nat.le_refl _⟩
  | read => exact .inl ⟨m, hm, Nat.le_refl _⟩
  | check => exact .inl ⟨m, hm, Nat.le_refl _⟩
  | lookup => exact .inl ⟨m, hm, Nat.le_refl _⟩
  | receive => exact .inl ⟨m, hm, Nat.le_refl _⟩
  | background => exact .inl ⟨m, hm, Nat.le_refl _⟩

/-- **C75**: a call that waits is not forgotten: its answer is there, or its job is queued or running —
or the job panicked. -/
theorem C75_waiting_query_has_a_job_partial (s : Schema) (hdv : DistinctViews s)
    (A : List Operation → Prop) (v : View) (q₀ q : QSys) (hst : QStart v q₀) (he : QExec s A q₀ q)
    (x : Query) (hx : x ∈ q.queries) (w id ch : Nat) (hp : x.phase = .wait w id ch)
    (hnp : ¬ Jobs.Panicked q.evs id) :
    (∃ r, q.mgr.inbox ch = [r]) ∨
      ∃ t ∈ q.mgr.active, t.id = id ∧ t.key = some x.view.name := by
  have hi := qexec_inv hdv (qinv_start hst) he
  have hok := hi.queries x hx
  unfold QueryOk at hok
  rw [hp] at hok
  obtain ⟨-, -, -, -, h4, h5, -, -⟩ := hok
  rcases hi.mgr.waiting id ch h4 with ⟨_, ha, _, _⟩ | ⟨r, _, e, _⟩
  · rcases ha with ⟨t, ht, hid⟩ | ha
    · exact .inr ⟨t, ht, hid, h5 t ht hid⟩
    · exact absurd ha hnp
  · exact .inl ⟨r, e⟩

end Bonsai.Store.Wait
