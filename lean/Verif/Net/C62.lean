import Verif.Net.Workers

/-!
# C62: one client cannot stop the server from answering the others
-/
set_option linter.unusedSimpArgs false
set_option linter.unusedVariables false

namespace Bonsai.Net

theorem PExec.trans {P : PLabel → Prop} {a b c : Pool} (h : PExec P a b) (h' : PExec P b c) : PExec P a c := by
  induction h' with
  | refl => exact h
  | step _ hs hp ih => exact .step ih hs hp

/-- The request a worker handles. -/
def WState.req : WState → List Req
  | .busy r => [r]
  | _ => []

/-- The requests that are handled. -/
def Pool.handled (s : Pool) : List Req := s.workers.flatMap (·.req)

/-- All workers live, and no request in the channel will make one panic. -/
structure Healthy (n : Nat) (s : Pool) : Prop where
  workers : s.workers.length = n
  alive : ∀ w ∈ s.workers, w ≠ .dead
  queue : ∀ r ∈ s.queue, (r.session && r.poison) = false

theorem healthy_step {n : Nat} {s s' : Pool} {l : PLabel} (hh : Healthy n s) (h : PStep s l s') (hl : Benign l) :
    Healthy n s' := by
  obtain ⟨h1, h2, h3⟩ := hh
  cases h with
  | submit =>
    refine ⟨h1, h2, ?_⟩
    intro r hr
    rcases List.mem_append.mp hr with hr | hr
    · exact h3 r hr
    · simp at hr; rw [hr]; exact hl
  | take hw hq =>
    rename_i w₁ w₂ r q
    refine ⟨by rw [← h1, hw]; simp, ?_, fun x hx => h3 x (by rw [hq]; exact List.mem_cons_of_mem _ hx)⟩
    intro w hm
    have hr := h3 r (by rw [hq]; exact List.mem_cons_self ..)
    simp only [List.mem_append, List.mem_cons] at hm
    rcases hm with hm | hm | hm
    · exact h2 w (by rw [hw]; simp [hm])
    · rw [hm, WState.take, hr]; simp
    · exact h2 w (by rw [hw]; simp [hm])
  | done hw =>
    refine ⟨by rw [← h1, hw]; simp, ?_, h3⟩
    intro w hm
    simp only [List.mem_append, List.mem_cons] at hm
    rcases hm with hm | hm | hm
    · exact h2 w (by rw [hw]; simp [hm])
    · rw [hm]; simp
    · exact h2 w (by rw [hw]; simp [hm])
  | panic hw => exact absurd hl (by simp [Benign])

theorem healthy_exec {n : Nat} {s : Pool} (h : PExec Benign (.new n) s) : Healthy n s := by
  induction h with
  | refl =>
    refine ⟨by simp [Pool.new], ?_, by simp [Pool.new]⟩
    intro w hw
    simp [Pool.new] at hw
    rw [hw.2]; simp
  | step _ hs hp ih => exact healthy_step ih hs hp

/-- Each request is in the channel, handled or answered, once: as often as it was made. -/
def whereabouts (s : Pool) : List Req := s.queue ++ (s.handled ++ s.answered)

theorem handled_mid {s : Pool} {w₁ w₂ : List WState} {w : WState} (h : s.workers = w₁ ++ w :: w₂) (r : Req) :
    s.handled.count r = (w₁.flatMap (·.req)).count r + w.req.count r + (w₂.flatMap (·.req)).count r := by
  unfold Pool.handled
  rw [h]
  simp only [List.flatMap_append, List.flatMap_cons, List.count_append]
  omega

/-- With workers that live, nothing but a request changes what is where. -/
theorem whereabouts_worker {n : Nat} {s s' : Pool} (hh : Healthy n s) (h : PStep s .worker s') (r : Req) :
    (whereabouts s').count r = (whereabouts s).count r := by
  cases h with
  | take hw hq =>
    rename_i w₁ w₂ x q
    have hx := hh.queue x (by rw [hq]; exact List.mem_cons_self ..)
    have h1 := handled_mid hw r
    have h2 := handled_mid (s := { s with workers := w₁ ++ WState.take x :: w₂, queue := q }) rfl r
    have h3 : (WState.take x).req = [x] := by simp only [WState.take, hx]; rfl
    rw [h3] at h2
    have h4 : WState.idle.req = [] := rfl
    rw [h4] at h1
    simp only [whereabouts, List.count_append, hq, List.count_cons, List.count_nil] at h1 h2 ⊢
    omega
  | done hw =>
    rename_i w₁ w₂ x
    have h1 := handled_mid hw r
    have h2 := handled_mid (s := { s with workers := w₁ ++ .idle :: w₂, answered := s.answered ++ [x] }) rfl r
    have h3 : (WState.busy x).req = [x] := rfl
    have h4 : WState.idle.req = [] := rfl
    rw [h3] at h1
    rw [h4] at h2
    simp only [whereabouts, List.count_append, List.count_cons, List.count_nil] at h1 h2 ⊢
    omega

/-! ## Progress -/

/-- The busy workers finish one by one. -/
theorem all_done : ∀ (k : Nat) (s : Pool), s.handled.length = k →
    ∃ s', PExec (· = .worker) s s' ∧ s'.handled = [] ∧ s'.queue = s.queue ∧ (∀ r ∈ s.handled, r ∈ s'.answered) ∧
      (∀ r ∈ s.answered, r ∈ s'.answered) ∧ s'.workers.length = s.workers.length ∧
      ((∀ w ∈ s.workers, w ≠ .dead) → ∀ w ∈ s'.workers, w ≠ .dead)
  | 0, s, hk => by
    have h0 : s.handled = [] := List.eq_nil_of_length_eq_zero hk
    refine ⟨s, .refl s, h0, rfl, ?_, fun r h => h, rfl, fun h => h⟩
    rw [h0]
    intro r hr; cases hr
  | k + 1, s, hk => by
    have hne : s.handled ≠ [] := by intro h; rw [h] at hk; cases hk
    obtain ⟨r, hr⟩ := List.exists_mem_of_ne_nil _ hne
    obtain ⟨w, hw, hrw⟩ := List.mem_flatMap.mp hr
    have hwb : w = .busy r := by
      cases w with
      | busy x => simp [WState.req] at hrw; rw [hrw]
      | idle => cases hrw
      | dead => cases hrw
    subst hwb
    obtain ⟨w₁, w₂, hl⟩ := List.append_of_mem hw
    obtain ⟨s', he, h1, h2, h3, h4, h5, h6⟩ := all_done k
      { s with workers := w₁ ++ .idle :: w₂, answered := s.answered ++ [r] } (by
        simp only [Pool.handled, hl, List.flatMap_append, List.flatMap_cons, List.length_append, WState.req] at hk ⊢
        simp at hk ⊢
        omega)
    refine ⟨s', PExec.trans (.step (.refl s) (.done hl) rfl) he, h1, h2, ?_, ?_, ?_, ?_⟩
    · intro x hx
      simp only [Pool.handled, hl, List.flatMap_append, List.flatMap_cons, List.mem_append, WState.req,
        List.mem_cons, List.not_mem_nil, or_false] at hx
      rcases hx with hx | hx | hx
      · exact h3 x (by simp only [Pool.handled, List.flatMap_append, List.mem_append]; exact .inl hx)
      · exact h4 x (by simp [hx])
      · exact h3 x (by
          simp only [Pool.handled, List.flatMap_append, List.flatMap_cons, List.mem_append]
          exact .inr (.inr hx))
    · intro x hx; exact h4 x (by simp [hx])
    · rw [h5, hl]; simp
    · intro ha
      refine h6 ?_
      intro w hw'
      simp only [List.mem_append, List.mem_cons] at hw'
      rcases hw' with h | h | h
      · exact ha w (by rw [hl]; simp [h])
      · rw [h]; simp
      · exact ha w (by rw [hl]; simp [h])

/-- When nothing is handled and a worker lives, it is idle. -/
theorem idle_exists {n : Nat} {s : Pool} (hh : Healthy n s) (hn : 0 < n) (h : s.handled = []) :
    ∃ w₁ w₂, s.workers = w₁ ++ .idle :: w₂ := by
  have h1 : s.workers ≠ [] := by intro e; have := hh.workers; rw [e] at this; simp at this; omega
  obtain ⟨w, hw⟩ := List.exists_mem_of_ne_nil _ h1
  have : w = .idle := by
    cases w with
    | idle => rfl
    | dead => exact absurd rfl (hh.alive _ hw)
    | busy r =>
      have : r ∈ s.handled := List.mem_flatMap.mpr ⟨_, hw, by simp [WState.req]⟩
      rw [h] at this; cases this
  exact this ▸ List.append_of_mem hw

theorem worker_benign {a b : Pool} (h : PExec (· = .worker) a b) : PExec Benign a b := by
  induction h with
  | refl => exact .refl _
  | step _ hs hp ih => subst hp; exact .step ih hs trivial

theorem healthy_mono {n : Nat} {a b : Pool} (hh : Healthy n a) (h : PExec (· = .worker) a b) : Healthy n b := by
  induction h with
  | refl => exact hh
  | step _ hs hp ih => subst hp; exact healthy_step ih hs trivial

/-- From every healthy state the workers answer everything that is in the channel. -/
theorem drained {n : Nat} (hn : 0 < n) : ∀ (q : List Req) (s : Pool), Healthy n s → s.queue = q →
    ∃ s', PExec (· = .worker) s s' ∧ s'.queue = [] ∧ ∀ r ∈ whereabouts s, r ∈ s'.answered
  | [], s, hh, hq => by
    obtain ⟨s', he, h1, h2, h3, h4, h5, h6⟩ := all_done _ s rfl
    refine ⟨s', he, by rw [h2, hq], ?_⟩
    intro r hr
    simp only [whereabouts, hq, List.nil_append, List.mem_append] at hr
    rcases hr with hr | hr
    · exact h3 r hr
    · exact h4 r hr
  | x :: q, s, hh, hq => by
    obtain ⟨s₁, he, h1, h2, h3, h4, h5, h6⟩ := all_done _ s rfl
    have hh₁ := healthy_mono hh he
    obtain ⟨w₁, w₂, hw⟩ := idle_exists hh₁ hn h1
    have hs : PStep s₁ .worker { s₁ with workers := w₁ ++ WState.take x :: w₂, queue := q } := .take hw (h2.trans hq)
    have hh₂ := healthy_step hh₁ hs trivial
    obtain ⟨s', he', h7, h8⟩ := drained hn q _ hh₂ rfl
    refine ⟨s', (PExec.step he hs rfl).trans he', h7, ?_⟩
    intro r hr
    have hx := hh.queue x (by rw [hq]; exact List.mem_cons_self ..)
    refine h8 r ?_
    simp only [whereabouts, hq, List.mem_append, List.mem_cons] at hr ⊢
    rcases hr with (hr | hr) | hr | hr
    · refine .inr (.inl ?_)
      simp only [Pool.handled, List.flatMap_append, List.flatMap_cons, List.mem_append]
      refine .inr (.inl ?_)
      simp only [WState.take, hx]
      simp [WState.req, hr]
    · exact .inl hr
    · exact .inr (.inr (h3 r hr))
    · exact .inr (.inr (h4 r hr))

/-- **C62, as far as it holds.** If no handler panics and no client sends a payload that is an error, then whatever
the clients send, however much, all workers go on living and every request of every client gets answered: from every
state, by the workers alone. -/
theorem C62_all_answered_partial {n : Nat} (hn : 0 < n) {s : Pool} (h : PExec Benign (.new n) s) :
    ∃ s', PExec (· = .worker) s s' ∧ s'.queue = [] ∧ (∀ r ∈ s.queue, r ∈ s'.answered) ∧
      ∀ r, WState.busy r ∈ s.workers → r ∈ s'.answered := by
  obtain ⟨s', he, h1, h2⟩ := drained hn _ s (healthy_exec h) rfl
  refine ⟨s', he, h1, fun r hr => h2 r (List.mem_append_left _ hr), ?_⟩
  intro r hr
  exact h2 r (List.mem_append_right _ (List.mem_append_left _ (List.mem_flatMap.mpr ⟨_, hr, by simp [WState.req]⟩)))

/-- **C62, as far as it holds.** Under the same conditions no request is answered more often than it was made, and
none disappears. -/
theorem C62_no_request_lost_partial {n : Nat} {s s' : Pool} {l : PLabel} (h : PExec Benign (.new n) s)
    (hs : PStep s l s') (hl : Benign l) (r : Req) :
    (whereabouts s').count r = (whereabouts s).count r + (if l = .request r then 1 else 0) := by
  cases hs with
  | submit =>
    rename_i x
    simp only [whereabouts, Pool.handled, List.count_append, List.count_cons, List.count_nil, beq_iff_eq,
      PLabel.request.injEq]
    omega
  | take hw hq =>
    have := whereabouts_worker (healthy_exec h) (.take hw hq) r
    rw [if_neg (by simp)]
    exact this
  | done hw =>
    have := whereabouts_worker (healthy_exec h) (.done hw) r
    rw [if_neg (by simp)]
    exact this
  | panic hw => exact absurd hl (by simp [Benign])

/-! ## Where it is violated -/

/-- A message of client 0, who has not logged in, whose value is an error. -/
def poisoned : Req := ⟨0, 0, true, true⟩

/-- The messages a schedule may contain: those of client 0 only. -/
def OnlyClient0 : PLabel → Prop
  | .request r => r.client = 0
  | .worker => True
  | .panic => False

theorem poisoned_pool (n : Nat) : ∀ k, k ≤ n → PExec OnlyClient0 (.new n)
    ⟨List.replicate k .dead ++ List.replicate (n - k) .idle, [], []⟩
  | 0, _ => .refl _
  | k + 1, hk => by
    have h0 := poisoned_pool n k (by omega)
    have h1 := h0.step (.submit (r := poisoned)) rfl
    have hw : List.replicate (n - k) WState.idle = .idle :: List.replicate (n - (k + 1)) .idle := by
      rw [show n - k = (n - (k + 1)) + 1 from by omega, List.replicate_succ]
    have h2 := h1.step (.take (w₁ := List.replicate k .dead) (w₂ := List.replicate (n - (k + 1)) .idle) (r := poisoned)
      (q := []) (by dsimp only; rw [hw]) rfl) trivial
    have h3 : List.replicate k WState.dead ++ WState.take poisoned :: List.replicate (n - (k + 1)) .idle =
        List.replicate (k + 1) .dead ++ List.replicate (n - (k + 1)) .idle := by
      rw [show WState.take poisoned = .dead from rfl, List.replicate_succ', List.append_assoc]
      rfl
    rw [h3] at h2
    exact h2

/-- **C62, violated** (server.rs:150): a worker unwraps the value of a payload, which the client chooses.  A client
that has not logged in ends every worker by sending as many messages as there are; no request of anybody is answered
after that, whatever happens. -/
theorem C62_violated_poison (n : Nat) : ∃ s, PExec OnlyClient0 (.new n) s ∧
    ∀ s', PExec (fun _ => True) s s' → s'.answered = [] := by
  refine ⟨_, poisoned_pool n n (Nat.le_refl _), ?_⟩
  intro s' he
  have h1 : (∀ w ∈ s'.workers, w = .dead) ∧ s'.answered = [] := by
    induction he with
    | refl =>
      refine ⟨?_, rfl⟩
      intro w hw
      simp at hw
      exact hw.2
    | step _ hs _ ih =>
      obtain ⟨h1, h2⟩ := ih
      cases hs with
      | submit => exact ⟨h1, h2⟩
      | take hw hq => exact absurd (h1 .idle (by rw [hw]; simp)) (by simp)
      | done hw => exact absurd (h1 (.busy _) (by rw [hw]; exact List.mem_append_right _ (List.mem_cons_self ..))) (by simp)
      | panic hw => exact absurd (h1 (.busy _) (by rw [hw]; exact List.mem_append_right _ (List.mem_cons_self ..))) (by simp)
  exact h1.2

/-- A request whose handler panics also takes its worker with it: with one worker, one such request is enough. -/
theorem C62_violated_panic : ∃ s, PExec (fun _ => True) (.new 1) s ∧ (∀ r ∈ s.queue, r.poison = false) ∧
    ∀ s', PExec (fun _ => True) s s' → s'.answered = [] := by
  have h0 : PExec (fun _ => True) (.new 1) (.new 1) := .refl _
  have h1 := h0.step (.submit (r := ⟨0, 0, false, true⟩)) trivial
  have h2 := h1.step (.take (w₁ := []) (w₂ := []) (r := ⟨0, 0, false, true⟩) (q := []) rfl rfl) trivial
  have h3 := h2.step (.panic (w₁ := []) (w₂ := []) rfl) trivial
  refine ⟨_, h3, by simp, ?_⟩
  intro s' he
  have h1 : (∀ w ∈ s'.workers, w = .dead) ∧ s'.answered = [] := by
    induction he with
    | refl => exact ⟨by simp, rfl⟩
    | step _ hs _ ih =>
      obtain ⟨h1, h2⟩ := ih
      cases hs with
      | submit => exact ⟨h1, h2⟩
      | take hw hq => exact absurd (h1 .idle (by rw [hw]; simp)) (by simp)
      | done hw => exact absurd (h1 (.busy _) (by rw [hw]; exact List.mem_append_right _ (List.mem_cons_self ..))) (by simp)
      | panic hw => exact absurd (h1 (.busy _) (by rw [hw]; exact List.mem_append_right _ (List.mem_cons_self ..))) (by simp)
  exact h1.2

-- Two clients, two workers, two requests: the hypotheses are met with a request handled and one waiting.
example : ∃ s, PExec Benign (.new 1) s ∧ s.queue.length = 1 ∧ s.handled.length = 1 := by
  have h0 : PExec Benign (.new 1) (.new 1) := .refl _
  have h1 := h0.step (.submit (r := ⟨0, 0, false, true⟩)) rfl
  have h2 := h1.step (.submit (r := ⟨1, 1, true, false⟩)) rfl
  have h3 := h2.step (.take (w₁ := []) (w₂ := []) (r := ⟨0, 0, false, true⟩) (q := [⟨1, 1, true, false⟩]) rfl rfl) trivial
  exact ⟨_, h3, rfl, rfl⟩

end Bonsai.Net
