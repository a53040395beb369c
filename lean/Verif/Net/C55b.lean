import Verif.Net.C55

/-!
# C55 and C63: what panics and shutdowns do to a connection
-/
set_option linter.unusedSimpArgs false
set_option linter.unusedVariables false

namespace Bonsai.Net

/-! ## Every accepted request is answered at most once -/

/-- Has it not yet got its response? -/
def Phase.waits : Phase → Bool
  | .responded => false
  | .decremented => false
  | _ => true

theorem waits_values : Phase.queued.waits = true ∧ Phase.running.waits = true ∧ Phase.resulted.waits = true ∧
    Phase.lost.waits = true ∧ Phase.responded.waits = false ∧ Phase.decremented.waits = false :=
  ⟨rfl, rfl, rfl, rfl, rfl, rfl⟩

/-- The requests without a response. -/
def unanswered (s : Srv) : List Nat := (s.tasks.filter (·.2.waits)).map (·.1)

/-- The requests without a response, the responses in the channel and those written. -/
def tracked (s : Srv) : List Nat := unanswered s ++ (s.outbox ++ s.written)

theorem unanswered_mid (l₁ l₂ : List (Nat × Phase)) (u v : Nat) (p : Phase) :
    (((l₁ ++ (u, p) :: l₂).filter (·.2.waits)).map (·.1)).count v =
      ((l₁.filter (·.2.waits)).map (·.1)).count v + ((l₂.filter (·.2.waits)).map (·.1)).count v +
        (if p.waits = true ∧ u = v then 1 else 0) := by
  simp only [List.filter_append, List.filter_cons, List.map_append, List.count_append]
  cases hp : p.waits <;> simp [List.count_cons] <;> omega

/-- Each request is counted once; never more, and while there is a writer never less. -/
structure TInv (t : Transport) (s : Srv) : Prop where
  most : ∀ u, (tracked s).count u ≤ if u < s.next then 1 else 0
  exact : s.writer = true → ∀ u, (tracked s).count u = if u < s.next then 1 else 0
  ws : t = .websocket → s.writer = true

theorem tinv_same {t : Transport} {s s' : Srv} (hi : TInv t s) (hn : s'.next = s.next) (hw : s'.writer = s.writer)
    (hc : ∀ u, (tracked s').count u = (tracked s).count u) : TInv t s' :=
  ⟨fun u => by rw [hc, hn]; exact hi.most u, fun h u => by rw [hc, hn]; exact hi.exact (hw ▸ h) u,
    fun h => hw.trans (hi.ws h)⟩

theorem tinv_step {t : Transport} {s s' : Srv} {l : SLabel} (hi : TInv t s) (h : SStep t s l s') : TInv t s' := by
  cases h with
  | loadFull hl h => exact tinv_same hi rfl rfl fun _ => rfl
  | loadFree hl h => exact tinv_same hi rfl rfl fun _ => rfl
  | notified hl h => exact tinv_same hi rfl rfl fun _ => rfl
  | casOk hl h => exact tinv_same hi rfl rfl fun _ => rfl
  | casFails hl h => exact tinv_same hi rfl rfl fun _ => rfl
  | receive hl =>
    have key : ∀ v, (tracked { s with loop := .load, next := s.next + 1, tasks := (s.next, .queued) :: s.tasks }).count v
        = (tracked s).count v + if s.next = v then 1 else 0 := by
      intro v
      simp only [tracked, unanswered, List.count_append, List.filter_cons, waits_values, if_true, List.map_cons,
        List.count_cons, beq_iff_eq]
      omega
    have hif : ∀ v, (if v < s.next + 1 then 1 else 0) = (if v < s.next then 1 else 0) + if s.next = v then 1 else 0 := by
      intro v
      by_cases e : s.next = v
      · subst e; simp
      · by_cases h1 : v < s.next
        · simp [e, h1, Nat.lt_succ_of_lt h1]
        · have : ¬ v < s.next + 1 := by omega
          simp [e, h1, this]
    refine ⟨fun v => ?_, fun h v => ?_, hi.ws⟩
    · rw [key]; dsimp only; rw [hif]; have := hi.most v; omega
    · rw [key]; dsimp only; rw [hif]; have := hi.exact h v; omega
  | stop hl => exact tinv_same hi rfl rfl fun _ => rfl
  | taken h =>
    refine tinv_same hi rfl rfl fun v => ?_
    simp only [tracked, unanswered, h, List.count_append, unanswered_mid, waits_values]
  | result h =>
    refine tinv_same hi rfl rfl fun v => ?_
    simp only [tracked, unanswered, h, List.count_append, unanswered_mid, waits_values]
  | panic h =>
    refine tinv_same hi rfl rfl fun v => ?_
    simp only [tracked, unanswered, h, List.count_append, unanswered_mid, waits_values]
  | respond h =>
    rename_i l₁ l₂ u
    cases hw : s.writer with
    | true =>
      refine tinv_same hi rfl hw.symm fun v => ?_
      simp only [tracked, unanswered, h, List.count_append, unanswered_mid, waits_values, if_true, List.count_cons,
        List.count_nil, beq_iff_eq]
      by_cases e : u = v <;> simp [e] <;> omega
    | false =>
      refine ⟨fun v => ?_, fun h => (by cases h), fun h => (by have := hi.ws h; rw [hw] at this; cases this)⟩
      · have := hi.most v
        simp only [tracked, unanswered, h, List.count_append, unanswered_mid, waits_values, Bool.false_eq_true, if_false,
          false_and, true_and] at this ⊢
        omega
  | decrement h =>
    refine tinv_same hi rfl rfl fun v => ?_
    simp only [tracked, unanswered, h, List.count_append, unanswered_mid, waits_values]
  | notify h =>
    refine tinv_same hi rfl rfl fun v => ?_
    simp only [tracked, unanswered, h, List.count_append, unanswered_mid, waits_values]
    simp
  | write hw h =>
    refine tinv_same hi rfl rfl fun v => ?_
    simp only [tracked, unanswered, h, List.count_append, List.count_cons, List.count_nil]
    omega
  | shutdown => exact tinv_same hi rfl rfl fun _ => rfl
  | writerStops ht hg hw =>
    refine ⟨fun v => ?_, fun h => (by cases h), fun h => (by rw [ht] at h; cases h)⟩
    have := hi.most v
    simp only [tracked, unanswered, List.count_append, List.count_nil] at this ⊢
    omega

theorem tinv_reachable {t : Transport} {limit : Nat} {s : Srv} (h : SReachable t limit s) : TInv t s := by
  unfold SReachable at h
  induction h with
  | refl => exact ⟨fun u => by simp [tracked, unanswered, Srv.new], fun _ u => by simp [tracked, unanswered, Srv.new],
      fun _ => rfl⟩
  | step _ hs _ ih => exact tinv_step ih hs

/-- **C55.** A request is answered at most once. -/
theorem C55_answered_once {t : Transport} {limit : Nat} {s : Srv} (h : SReachable t limit s) (u : Nat) :
    s.written.count u ≤ 1 ∧ (u ∈ s.written → u < s.next) := by
  have h1 := (tinv_reachable h).most u
  simp only [tracked, List.count_append] at h1
  refine ⟨?_, fun h2 => ?_⟩
  · have : (if u < s.next then 1 else 0) ≤ 1 := by split <;> omega
    omega
  · have := List.count_pos_iff.mpr h2
    by_cases h3 : u < s.next
    · exact h3
    · rw [if_neg h3] at h1; omega

theorem unanswered_mem {s : Srv} {u : Nat} (h : u ∈ unanswered s) :
    (u, Phase.queued) ∈ s.tasks ∨ (u, Phase.running) ∈ s.tasks ∨ (u, Phase.resulted) ∈ s.tasks ∨ (u, Phase.lost) ∈ s.tasks := by
  obtain ⟨⟨v, p⟩, hp, e⟩ := List.mem_map.mp h
  simp only at e
  subst e
  obtain ⟨h1, h2⟩ := List.mem_filter.mp hp
  cases p with
  | queued => exact .inl h1
  | running => exact .inr (.inl h1)
  | resulted => exact .inr (.inr (.inl h1))
  | lost => exact .inr (.inr (.inr h1))
  | responded => cases h2
  | decremented => cases h2

/-- **C55, C63.** On a WebSocket no request is forgotten, whether or not the server is shutting down: every accepted
request is in process, lost by a panic, or its response is in the channel or written. -/
theorem C63_websocket_tracked {limit : Nat} {s : Srv} (h : SReachable .websocket limit s) {u : Nat} (hu : u < s.next) :
    (u, Phase.queued) ∈ s.tasks ∨ (u, Phase.running) ∈ s.tasks ∨ (u, Phase.resulted) ∈ s.tasks ∨
      (u, Phase.lost) ∈ s.tasks ∨ u ∈ s.outbox ∨ u ∈ s.written := by
  have hi := tinv_reachable h
  have h1 := hi.exact (hi.ws rfl) u
  rw [if_pos hu] at h1
  have h2 : u ∈ tracked s := List.count_pos_iff.mp (by omega)
  rcases List.mem_append.mp h2 with h2 | h2
  · rcases unanswered_mem h2 with h | h | h | h
    · exact .inl h
    · exact .inr (.inl h)
    · exact .inr (.inr (.inl h))
    · exact .inr (.inr (.inr (.inl h)))
  · exact .inr (.inr (.inr (.inr (List.mem_append.mp h2))))

/-- The channel is emptied in order. -/
theorem flush {t : Transport} : ∀ (o : List Nat) (s : Srv), s.outbox = o → s.writer = true →
    ∃ s', SExec t (· = .internal) s s' ∧ s'.written = s.written ++ o
  | [], s, _, _ => ⟨s, .refl s, by simp⟩
  | u :: o, s, ho, hw => by
    obtain ⟨s', he, h⟩ := flush (t := t) o { s with outbox := o, written := s.written ++ [u] } rfl hw
    refine ⟨s', SExec.trans (.step (.refl s) (.write hw ho) rfl) he, ?_⟩
    rw [h]
    simp

/-- **C63.** On a WebSocket a request that has its result is answered by the server itself, whether or not the
server is shutting down. -/
theorem C63_websocket_answers {limit : Nat} {s : Srv} (h : SReachable .websocket limit s) {u : Nat}
    (hu : (u, Phase.resulted) ∈ s.tasks) : ∃ s', SExec .websocket (· = .internal) s s' ∧ u ∈ s'.written := by
  have hw := (tinv_reachable h).ws rfl
  obtain ⟨l₁, l₂, hl⟩ := List.append_of_mem hu
  have hs : SStep .websocket s .internal _ := .respond hl
  obtain ⟨s', he, hr⟩ := flush (t := .websocket) (s.outbox ++ [u])
    { s with tasks := l₁ ++ (u, .responded) :: l₂, outbox := if s.writer then s.outbox ++ [u] else s.outbox }
    (by simp [hw]) hw
  refine ⟨s', SExec.trans (.step (.refl s) hs rfl) he, ?_⟩
  rw [hr]
  simp

/-! ## Panics -/

/-- `n` requests whose handler panicked. -/
def lostTasks : Nat → List (Nat × Phase)
  | 0 => []
  | n + 1 => (n, .lost) :: lostTasks n

theorem lost_reachable (t : Transport) (limit : Nat) : ∀ n, n ≤ limit →
    SReachable t limit ⟨limit, n, .load, false, n, lostTasks n, [], [], true, false⟩
  | 0, _ => .refl _
  | n + 1, h => by
    have h0 := lost_reachable t limit n (by omega)
    have h1 := h0.step (.loadFree rfl (by dsimp only; omega)) trivial
    have h2 := h1.step (.casOk (n := n) rfl rfl) trivial
    have h3 := h2.step (.receive rfl) trivial
    have h4 := h3.step (.taken (l₁ := []) rfl) trivial
    exact h4.step (.panic (l₁ := []) rfl) trivial

theorem lostTasks_count : ∀ n, (lostTasks n).countP (fun p => decide (p.2 = .lost)) = n
  | 0 => rfl
  | n + 1 => by simp [lostTasks, List.countP_cons, lostTasks_count n]

theorem panicked_le (s : Srv) : panicked s ≤ counted s := by
  unfold panicked counted
  refine List.countP_mono_left ?_
  rintro ⟨u, p⟩ _ h
  cases p <;> simp at h ⊢

theorem panicked_step {t : Transport} {s s' : Srv} {l : SLabel} (h : SStep t s l s') : panicked s ≤ panicked s' := by
  unfold panicked
  cases h with
  | receive hl => simp [List.countP_cons]
  | taken h => simp [h, List.countP_append, List.countP_cons]
  | result h => simp [h, List.countP_append, List.countP_cons]
  | panic h => simp [h, List.countP_append, List.countP_cons]
  | respond h => simp [h, List.countP_append, List.countP_cons]
  | decrement h => simp [h, List.countP_append, List.countP_cons]
  | notify h => simp [h, List.countP_append, List.countP_cons]
  | _ => simp

/-- Nothing is accepted any more. -/
def Dead (s : Srv) : Prop := SInv s ∧ panicked s = s.limit ∧ (s.loop = .load ∨ s.loop = .wait)

theorem dead_step {t : Transport} {s s' : Srv} {l : SLabel} (hd : Dead s) (h : SStep t s l s') :
    Dead s' ∧ s'.next = s.next := by
  obtain ⟨hi, hp, hl⟩ := hd
  have hi' := sinv_step hi h
  have hp' := panicked_step h
  have h1 := panicked_le s'
  have h2 := hi'.counter
  have h3 := hi'.limit
  have hcounter : s.counter = s.limit := by
    have := panicked_le s
    have := hi.counter
    have := hi.limit
    omega
  have hlimit : s'.limit = s.limit := by cases h <;> rfl
  have hpan : panicked s' = s'.limit := by omega
  cases h with
  | loadFull hl' h => exact ⟨⟨hi', hpan, .inr rfl⟩, rfl⟩
  | loadFree hl' h => exact absurd hcounter h
  | notified hl' h => exact ⟨⟨hi', hpan, .inl rfl⟩, rfl⟩
  | casOk hl' h => rw [hl'] at hl; simp at hl
  | casFails hl' h => rw [hl'] at hl; simp at hl
  | receive hl' => rw [hl'] at hl; simp at hl
  | stop hl' => rw [hl'] at hl; simp at hl
  | _ => exact ⟨⟨hi', hpan, hl⟩, rfl⟩

/-- **C55, violated by panics** (server.rs:139-156 and 674-683): a request whose handler panics keeps its slot and is
never answered.  After `limit` of them the connection accepts no request any more, whatever happens.  (For
`limit = 0` this says that a limit of 0 accepts nothing.) -/
theorem C55_violated_panic (t : Transport) (limit : Nat) : ∃ s, SReachable t limit s ∧ s.next = limit ∧
    (∀ p ∈ s.tasks, p.2 = .lost) ∧
    ∀ s', SExec t (fun _ => True) s s' → s'.loop ≠ .recv ∧ s'.next = limit := by
  refine ⟨_, lost_reachable t limit limit (Nat.le_refl _), rfl, ?_, ?_⟩
  · have : ∀ n, ∀ p ∈ lostTasks n, p.2 = .lost := by
      intro n
      induction n with
      | zero => intro p hp; cases hp
      | succ n ih =>
        intro p hp
        rcases List.mem_cons.mp hp with h | h
        · rw [h]
        · exact ih p h
    exact this limit
  · intro s' he
    have h1 : Dead s' ∧ s'.next = limit := by
      induction he with
      | refl =>
        exact ⟨⟨(sinv_reachable (lost_reachable t limit limit (Nat.le_refl _))).1, lostTasks_count limit, .inl rfl⟩, rfl⟩
      | step _ hs _ ih =>
        have := dead_step ih.1 hs
        exact ⟨this.1, this.2.trans ih.2⟩
    refine ⟨?_, h1.2⟩
    rcases h1.1.2.2 with h | h <;> rw [h] <;> simp

/-! ## Shutdown -/

theorem silent_step {t : Transport} {s s' : Srv} {l : SLabel} (h : SStep t s l s') (hw : s.writer = false) :
    s'.writer = false ∧ s'.written = s.written := by
  cases h with
  | write hw' h => rw [hw] at hw'; cases hw'
  | writerStops ht hg hw' => rw [hw] at hw'; cases hw'
  | _ => exact ⟨hw, rfl⟩

/-- A request is being handled when the server is asked to shut down. -/
def shuttingDown : Srv := ⟨16, 1, .load, false, 1, [(0, .running)], [], [], true, true⟩

theorem shuttingDown_reachable (t : Transport) : SReachable t 16 shuttingDown := by
  have h0 : SReachable t 16 (.new 16) := .refl _
  have h1 := h0.step (.loadFree rfl (by decide)) trivial
  have h2 := h1.step (.casOk (n := 0) rfl rfl) trivial
  have h3 := h2.step (.receive rfl) trivial
  have h4 := h3.step (.taken (l₁ := []) rfl) trivial
  exact h4.step .shutdown trivial

/-- **C63, violated on QUIC** (server.rs:709-713): the writer ends as soon as the server is asked to shut down
gracefully.  A request that is being handled at that time is never answered, although `shutdown` is documented to
attempt that. -/
theorem C63_violated_quic : ∃ s u, SReachable .quic 16 s ∧ s.graceful = true ∧ (u, Phase.running) ∈ s.tasks ∧
    ∀ s', SExec .quic (fun _ => True) s s' → u ∉ s'.written := by
  refine ⟨{ shuttingDown with writer := false, outbox := [] }, 0,
    (shuttingDown_reachable .quic).step (.writerStops rfl rfl rfl) trivial, rfl, by decide, ?_⟩
  intro s' he
  have h1 : s'.writer = false ∧ s'.written = [] := by
    induction he with
    | refl => exact ⟨rfl, rfl⟩
    | step _ hs _ ih => exact ⟨(silent_step hs ih.1).1, (silent_step hs ih.1).2.trans ih.2⟩
  rw [h1.2]
  simp

-- The hypotheses of `C55_slot_freed` are met, while a request is being handled.
example : inProcess shuttingDown = 1 ∧ inProcess shuttingDown < 16 ∧ shuttingDown.loop ≠ .stopped := by decide
-- And the limit is reached with a limit of 1.
example : ∃ s, SReachable .quic 1 s ∧ inProcess s = 1 := by
  have h0 : SReachable .quic 1 (.new 1) := .refl _
  have h1 := h0.step (.loadFree rfl (by decide)) trivial
  have h2 := h1.step (.casOk (n := 0) rfl rfl) trivial
  have h3 := h2.step (.receive rfl) trivial
  exact ⟨_, h3, by decide⟩

end Bonsai.Net
