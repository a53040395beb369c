import Verif.Net.Browser
/-!
# C94: what happens to a request in a browser

Each request is answered by its response, or with an error when its connection cannot be made or ends; none is lost, and
none fails because of an earlier connection.  The code violates the last two parts.
-/
set_option linter.unusedSimpArgs false
set_option linter.unusedVariables false

namespace Bonsai.Browser

/-- What holds in every state that is reached. -/
structure Inv (st : St) : Prop where
  fresh : ∀ r, st.next ≤ r ↔ st.loc r = .new
  initialLt : ∀ r c, st.loc r = .initial c → c < st.n
  chanLt : ∀ r c, st.loc r = .chan c → c < st.n
  outLt : ∀ r c b, st.loc r = .out c b → c < st.n
  initialOpen : ∀ r c, st.loc r = .initial c → (st.conn c).sock ≠ .closed
  initialSender : ∀ r c, st.loc r = .initial c → (st.conn c).sender = .none ∨ (st.conn c).sender = .first
  oneInitial : ∀ r q c, st.loc r = .initial c → st.loc q = .initial c → r = q
  busyOpen : ∀ c, st.worker = .busy c → (st.conn c).sock ≠ .closed ∧ c < st.n
  openBusy : ∀ c, (st.conn c).sock ≠ .closed → st.worker = .busy c
  unmade : ∀ c, st.n ≤ c → st.conn c = ⟨.closed, .none, false, false⟩
  connecting : ∀ c, (st.conn c).sock = .connecting → (st.conn c).sender = .none ∧ ∃ r, st.loc r = .initial c
  closingShut : ∀ c, c < st.n → (st.conn c).sock = .closing → (st.conn c).sender ≠ .ended → (st.conn c).shut = true
  closedShut : ∀ c, c < st.n → (st.conn c).sock = .closed → (st.conn c).shut = true
  openSender : ∀ c, (st.conn c).sock = .opened → (st.conn c).sender ≠ .none
  firstShut : ∀ c, (st.conn c).sender = .first → (∃ r, st.loc r = .initial c) ∨ (st.conn c).shut = true
  endedShut : ∀ c, (st.conn c).sender = .ended → (st.conn c).shut = true
  endedSock : ∀ c, (st.conn c).sender = .ended → (st.conn c).sock ≠ .connecting ∧ (st.conn c).sock ≠ .opened
  fwdShut : ∀ c, c < st.n → (st.conn c).fwd = false → (st.conn c).shut = true

theorem inv_init : Inv .init := by
  constructor <;> simp [St.init]

set_option maxHeartbeats 8000000 in
theorem inv_step {a b : St} (h : Inv a) (s : Step a b) : Inv b := by
  obtain ⟨h1, h2, h3, h4, h5, h6, h6b, h7, h8, h9, h10, h11, h11b, h12, h13, h14, h15, h16⟩ := h
  cases s <;> constructor <;> simp only [St.move, St.setConn, St.failInitial, St.failOut, St.nobody] at * <;> grind

theorem inv_steps {st : St} (h : Steps .init st) : Inv st := by
  induction h with
  | refl => exact inv_init
  | step h1 h2 ih => exact inv_step ih h2

/-! ## Specification -/

/-- A request was answered. -/
def Answered (st : St) (r : Nat) : Prop := ∃ a, st.loc r = .answered a

/-- A request is lost: nothing will use its responder, and nothing drops it. -/
def Lost (st : St) (r : Nat) : Prop :=
  ∃ c, (st.conn c).sock = .closed ∧ (∃ b, st.loc r = .out c b)
    ∨ (st.conn c).sock = .closed ∧ (st.conn c).sender = .loop ∧ st.loc r = .chan c
    ∨ ((st.conn c).sock = .closed ∨ (st.conn c).sock = .closing) ∧ (st.conn c).sender = .none ∧ st.loc r = .chan c

/-! ## Theorems -/

/-- What was answered stays so: a request is answered once. -/
theorem C94_once {a b : St} {r : Nat} {x : Ans} (h : Steps .init a) (s : Steps a b) (hr : a.loc r = .answered x) :
    b.loc r = .answered x := by
  have key : Steps .init b ∧ b.loc r = .answered x := by
    induction s with
    | refl => exact ⟨h, hr⟩
    | step h1 h2 ih =>
      obtain ⟨i1, i2⟩ := ih
      refine ⟨.step i1 h2, ?_⟩
      obtain ⟨hf, _⟩ := inv_steps i1
      cases h2 <;> simp only [St.move, St.setConn, St.failInitial, St.failOut] at * <;> grind
  exact key.2

/-- A response that a request gets is the one to what was sent while the connection was open. -/
theorem C94_response {a b : St} {r : Nat} (h : Steps .init a) (s : Step a b) (hn : a.loc r ≠ .answered .response)
    (hr : b.loc r = .answered .response) : ∃ c, (a.conn c).sock = .opened ∧ a.loc r = .out c true := by
  cases s <;> simp only [St.move, St.setConn, St.failInitial, St.failOut] at * <;> grind

/-- When a connection ends, the request that opens it and every request that was sent on it is answered with an error. -/
theorem C94_close {a b : St} {c r : Nat} {o : Bool} (h : Steps .init a) (s : Step a b) (ho : (a.conn c).sock ≠ .closed)
    (hc : (b.conn c).sock = .closed) (hr : a.loc r = .initial c ∨ a.loc r = .out c o) : b.loc r = .answered .error := by
  cases o <;> cases s <;> simp only [St.move, St.setConn, St.failInitial, St.failOut] at * <;> grind

/-- An error is given only when there is no connection, or one that is closed or closes. -/
theorem C94_error {a b : St} {r : Nat} (h : Steps .init a) (s : Step a b) (hn : a.loc r ≠ .answered .error)
    (hr : b.loc r = .answered .error) :
    (∃ p, a.worker = .idle p ∧ a.loc r = .queue) ∨
      ∃ c, (a.loc r = .queue ∧ (a.conn c).fwd = true ∨ a.loc r = .initial c ∨ a.loc r = .chan c ∨ ∃ o, a.loc r = .out c o) ∧
        (b.conn c).sock ≠ .connecting ∧ (b.conn c).sock ≠ .opened ∧ (b.conn c).shut = true := by
  obtain ⟨h1, h2', h3, h4, h5, h6, h6b, h7, h8, h9, h10, h11, h11b, h12, h13, h14, h15, h16⟩ := inv_steps h
  cases s <;> simp only [St.move, St.setConn, St.failInitial, St.failOut] at * <;> grind

/-- The error of a connection that ended is given to at most one request: the next one can be served (`C94_served`). -/
theorem C94_stale_once {a b : St} {r : Nat} {x : Ans} (s : Step a b) (hw : a.worker = .idle true)
    (hq : a.loc r = .queue) (hr : b.loc r = .answered x) (hc : ∀ c, (a.conn c).fwd = false) :
    x = .error ∧ b.worker = .idle false ∧ ∀ q, q ≠ r → b.loc q = a.loc q := by
  cases s <;> simp only [St.move, St.setConn, St.failInitial, St.failOut] at * <;> grind

/-- At most one connection exists. -/
theorem C94_one {st : St} {c d : Nat} (h : Steps .init st) (hc : (st.conn c).sock ≠ .closed)
    (hd : (st.conn d).sock ≠ .closed) : c = d := by
  have i := inv_steps h
  have e1 := i.openBusy c hc
  have e2 := i.openBusy d hd
  rw [e1] at e2
  exact Worker.busy.inj e2

theorem steps_cons {a b d : St} (h : Step a b) (s : Steps b d) : Steps a d := by
  induction s with
  | refl => exact .step .refl h
  | step h1 h2 ih => exact .step ih h2

theorem steps_trans {a b d : St} (h : Steps a b) (s : Steps b d) : Steps a d := by
  induction s with
  | refl => exact h
  | step h1 h2 ih => exact .step ih h2

/-- Lost requests stay lost: no execution answers them. -/
theorem C94_lost {a b : St} {r : Nat} (h : Steps .init a) (s : Steps a b) (hl : Lost a r) :
    Lost b r ∧ ¬ Answered b r := by
  have key : Steps .init b ∧ Lost b r := by
    induction s with
    | refl => exact ⟨h, hl⟩
    | step h1 h2 ih =>
      obtain ⟨i1, c, i2⟩ := ih
      refine ⟨.step i1 h2, ?_⟩
      obtain ⟨h1, h2', h3, h4, h5, h6, h6b, h7, h8, h9, h10, h11, h11b, h12, h13, h14, h15, h16⟩ := inv_steps i1
      unfold Lost
      cases h2 <;> simp only [St.move, St.setConn, St.failInitial, St.failOut] at *
      case send c' r' e1 e2 =>
        by_cases hrr : r = r'
        · subst hrr
          rcases i2 with ⟨u, o, v⟩ | ⟨u, u', v⟩ | ⟨u, u', v⟩
          · grind
          · rw [e2] at v; cases v; exact ⟨c, .inl ⟨u, _, if_pos rfl⟩⟩
          · grind
        · exact ⟨c, by grind⟩
      all_goals exact ⟨c, by grind⟩
  refine ⟨key.2, ?_⟩
  rintro ⟨x, hx⟩
  obtain ⟨c, hc⟩ := key.2
  grind

/-- An execution without new calls answers the request. -/
def Answerable (st : St) (r : Nat) : Prop := ∃ b, Steps st b ∧ b.next = st.next ∧ Answered b r

theorem answerable_cons {a b : St} {r : Nat} (s : Step a b) (hn : b.next = a.next) (h : Answerable b r) :
    Answerable a r := by
  obtain ⟨d, h1, h2, h3⟩ := h
  exact ⟨d, steps_cons s h1, h2.trans hn, h3⟩

theorem answerable_here {a : St} {r : Nat} {x : Ans} (h : a.loc r = .answered x) : Answerable a r :=
  ⟨a, .refl, rfl, x, h⟩

theorem close_exists (st : St) (c : Nat) (h1 : c < st.n) (h2 : (st.conn c).sock ≠ .closed) :
    ∃ p, Step st { ((st.failInitial c).failOut c).setConn c { st.conn c with shut := true, sock := .closed } with
        worker := .idle p } := by
  rcases Classical.em (st.nobody c) with h | h
  · exact ⟨true, .close h1 h2 (by simp [h])⟩
  · exact ⟨false, .close h1 h2 (by simp [h])⟩

theorem close_steps {a st : St} (s : Steps a st) (c : Nat) (h1 : c < st.n) (h2 : (st.conn c).sock ≠ .closed) :
    ∃ p, Steps a { ((st.failInitial c).failOut c).setConn c { st.conn c with shut := true, sock := .closed } with
        worker := .idle p } := by
  obtain ⟨p, hp⟩ := close_exists st c h1 h2
  exact ⟨p, .step s hp⟩

theorem refl_of {a st : St} (s : Steps a st) : Steps st st := .refl

theorem live_out {st : St} {c r : Nat} (h1 : c < st.n) (h2 : (st.conn c).sock ≠ .closed)
    (hr : st.loc r = .initial c ∨ ∃ o, st.loc r = .out c o) : Answerable st r := by
  obtain ⟨p, hp⟩ := close_exists st c h1 h2
  refine answerable_cons hp rfl (answerable_here (x := .error) ?_)
  rcases hr with h | ⟨o, h⟩
  · simp [St.setConn, St.failOut, St.failInitial, h]
  · cases o <;> simp [St.setConn, St.failOut, St.failInitial, h]

theorem chan_ended {st : St} {c r : Nat} (h1 : (st.conn c).sender = .ended) (h2 : (st.conn c).shut = true)
    (hr : st.loc r = .chan c) : Answerable st r := by
  rcases hf : (st.conn c).fwd with _ | _
  · exact answerable_cons (.dropped hf h1 hr) rfl (answerable_here (x := .error) (by simp [St.move]))
  · refine answerable_cons (.forwardEnds hf h2) rfl ?_
    refine answerable_cons (.dropped (c := c) (r := r) (by simp [St.setConn]) (by simp [St.setConn, h1])
      (by simp [St.setConn, hr])) rfl ?_
    exact answerable_here (x := .error) (by simp [St.move])

theorem chan_loop {st : St} {c r : Nat} (h1 : (st.conn c).sender = .loop) (h2 : (st.conn c).sock ≠ .closed)
    (h3 : c < st.n) (hr : st.loc r = .chan c) : Answerable st r := by
  refine answerable_cons (.send h1 hr) rfl ?_
  exact live_out (c := c) h3 h2 (.inr ⟨_, by simp [St.move]; rfl⟩)

theorem chan_first {st : St} {c r : Nat} (i : Inv st) (h1 : (st.conn c).sender = .first)
    (h3 : c < st.n) (hr : st.loc r = .chan c) : Answerable st r := by
  rcases Classical.em (∃ q, st.loc q = .initial c) with ⟨q, hq⟩ | h
  · have hs := i.initialOpen q c hq
    have hne : r ≠ q := by intro e; subst e; rw [hr] at hq; cases hq
    refine answerable_cons (.first h1 hq) rfl ?_
    refine chan_loop (c := c) ?_ ?_ h3 ?_ <;> simp [St.move, St.setConn, hs, hne, hr]
  · have hs := (i.firstShut c h1).resolve_left h
    refine answerable_cons (.firstGone (c := c) h1 (fun q hq => h ⟨q, hq⟩)) rfl ?_
    refine chan_ended (c := c) ?_ ?_ ?_ <;> simp [St.setConn, hs, hr]

theorem queue_idle {st : St} {r : Nat} {p : Bool} (h : st.worker = .idle p) (hr : st.loc r = .queue) :
    Answerable st r := by
  cases p
  · exact answerable_cons (.startFails h hr) rfl (answerable_here (x := .error) (by simp [St.move]))
  · exact answerable_cons (.replay h hr) rfl (answerable_here (x := .error) (by simp [St.move]))

/-- Each request that was made and is not lost can be answered: the requests that cannot are exactly the lost ones
(`C94_lost`). -/
theorem C94_progress {st : St} {r : Nat} (h : Steps .init st) (hr : r < st.next) (hl : ¬ Lost st r) :
    Answerable st r := by
  have i := inv_steps h
  have hn : st.loc r ≠ .new := fun e => absurd ((i.fresh r).2 e) (by omega)
  rcases hc : st.loc r with _ | _ | c | c | ⟨c, o⟩ | x
  · exact absurd hc hn
  · rcases hw : st.worker with p | c
    · exact queue_idle hw hc
    · obtain ⟨h1, h2⟩ := i.busyOpen c hw
      obtain ⟨p, hp⟩ := close_exists st c h2 h1
      refine answerable_cons hp rfl (queue_idle (p := p) rfl ?_)
      simp [St.setConn, St.failOut, St.failInitial, hc]
  · exact live_out (i.initialLt r c hc) (i.initialOpen r c hc) (.inl hc)
  · have hlt := i.chanLt r c hc
    rcases hs : (st.conn c).sender with _ | _ | _ | _
    · have hsock : (st.conn c).sock = .connecting := by
        rcases hk : (st.conn c).sock with _ | _ | _ | _
        · rfl
        · exact absurd hs (i.openSender c hk)
        · exact absurd ⟨c, .inr (.inr ⟨.inr hk, hs, hc⟩)⟩ hl
        · exact absurd ⟨c, .inr (.inr ⟨.inl hk, hs, hc⟩)⟩ hl
      have st1 := Step.opened hsock
      refine answerable_cons st1 rfl ?_
      exact chan_first (c := c) (inv_step i st1) (by simp [St.setConn]) hlt hc
    · exact chan_first i hs hlt hc
    · refine chan_loop hs (fun hk => hl ⟨c, .inr (.inl ⟨hk, hs, hc⟩)⟩) hlt hc
    · exact chan_ended hs (i.endedShut c hs) hc
  · refine live_out (i.outLt r c o hc) (fun hk => hl ⟨c, .inl ⟨hk, o, hc⟩⟩) (.inr ⟨o, hc⟩)
  · exact answerable_here hc

/-- A request that waits while there is no connection and no error can get its response. -/
theorem C94_served {st : St} {r : Nat} (h : Steps .init st) (hw : st.worker = .idle false) (hr : st.loc r = .queue) :
    ∃ b, Steps st b ∧ b.loc r = .answered .response := by
  have s0 := Steps.refl (st := st)
  have s1 := Steps.step s0 (.start hw hr)
  have s2 := Steps.step s1 (.opened (c := st.n) (by simp [St.setConn]))
  have s3 := Steps.step s2 (.first (c := st.n) (r := r) (by simp [St.setConn]) (by simp [St.setConn, St.move]))
  have s4 := Steps.step s3 (.respond (c := st.n) (r := r) (by simp [St.setConn, St.move]) (by simp [St.setConn, St.move]))
  exact ⟨_, s4, by simp [St.move]⟩

/-! ## Violations -/

/-- Two calls are made; the second one goes to the connection that the first one opens, which cannot be opened: the
first gets the error, the second is lost.  (The error event comes before the close event.) -/
theorem C94_violated_lost : ∃ st, Steps .init st ∧ st.loc 0 = .answered .error ∧ 1 < st.next ∧ Lost st 1 := by
  have s0 := Steps.refl (st := St.init)
  have s1 := Steps.step s0 .call
  have s2 := Steps.step s1 .call
  have s3 := Steps.step s2 (.start (r := 0) rfl rfl)
  have s4 := Steps.step s3 (.forward (c := 0) (r := 1) rfl (by decide) rfl)
  have s5 := Steps.step s4 (.fails (c := 0) (.inl rfl))
  obtain ⟨p, s6⟩ := close_steps s5 0 (by decide) (by decide)
  exact ⟨_, s6, rfl, Nat.lt_succ_self 1, 0, .inr (.inr ⟨.inl rfl, rfl, rfl⟩)⟩

/-- A connection that works ends; a call that is made then is given to it, although it was told to stop, and is sent on
the closed socket: it is lost. -/
theorem C94_violated_after_close : ∃ a b, Steps .init a ∧ (a.conn 0).sock = .closed ∧ a.loc 1 = .new ∧ Steps a b ∧
    1 < b.next ∧ b.n = 1 ∧ Lost b 1 := by
  have s0 := Steps.refl (st := St.init)
  have s1 := Steps.step s0 .call
  have s2 := Steps.step s1 (.start (r := 0) rfl rfl)
  have s3 := Steps.step s2 (.opened (c := 0) rfl)
  have s4 := Steps.step s3 (.first (c := 0) (r := 0) rfl rfl)
  have s5 := Steps.step s4 (.respond (c := 0) (r := 0) rfl rfl)
  obtain ⟨p, s6⟩ := close_steps s5 0 (by decide) (by decide)
  have t0 := refl_of s6
  have t1 := Steps.step t0 (Step.call)
  have t2 := Steps.step t1 (.forward (c := 0) (r := 1) rfl (show Sender.loop ≠ .ended by decide) rfl)
  have t3 := Steps.step t2 (.send (c := 0) (r := 1) rfl rfl)
  exact ⟨_, _, s6, rfl, rfl, t3, Nat.lt_succ_self 1, rfl, 0, .inl ⟨rfl, _, rfl⟩⟩

/-- A connection cannot be opened, and the call that opened it is told so; the next call, whenever it is made, fails
with the same error, and no connection is tried. -/
theorem C94_violated_stale : ∃ a b, Steps .init a ∧ a.worker = .idle true ∧ a.loc 0 = .answered .error ∧ a.n = 1 ∧
    (∀ r, a.loc r = .new ∨ r = 0) ∧ Steps a b ∧ b.loc 1 = .answered .error ∧ b.n = 1 := by
  have s0 := Steps.refl (st := St.init)
  have s1 := Steps.step s0 .call
  have s2 := Steps.step s1 (.start (r := 0) rfl rfl)
  have s3 := Steps.step s2 (.fails (c := 0) (.inl rfl))
  have s4 := Steps.step s3 (.close (c := 0) (pending := true) (by decide) (by decide) (by
    simp only [St.nobody, true_iff]
    intro r
    by_cases h : r = 0 <;> simp [St.setConn, St.failInitial, St.move, St.init, h]))
  have t0 := refl_of s4
  have t1 := Steps.step t0 (Step.call)
  have t2 := Steps.step t1 (.replay (r := 1) rfl rfl)
  refine ⟨_, _, s4, rfl, rfl, rfl, ?_, t2, rfl, rfl⟩
  intro r
  by_cases h : r = 0 <;> simp [St.setConn, St.failInitial, St.failOut, St.move, St.init, h]

/-- Where there is no window (in a web worker), every call times out at once, whatever the server answers. -/
theorem C94_violated_worker (elapsed : Bool) (l : Loc) : result false elapsed l = .timeout := by
  cases l <;> rfl

/-- In a window a call gives the answer, and a timeout only when its time passed before. -/
theorem C94_result (elapsed : Bool) (l : Loc) :
    (∀ a, result true elapsed l = .answer a ↔ l = .answered a) ∧
      (result true elapsed l = .timeout ↔ elapsed = true ∧ ∀ a, l ≠ .answered a) := by
  cases l <;> cases elapsed <;> simp [result]

/-! ## Examples -/

/-- A request is answered while another one waits for its response; then the connection ends. -/
example : ∃ st, Steps .init st ∧ st.loc 0 = .answered .response ∧ st.loc 1 = .answered .error := by
  have s0 := Steps.refl (st := St.init)
  have s1 := Steps.step s0 .call
  have s2 := Steps.step s1 .call
  have s3 := Steps.step s2 (.start (r := 0) rfl rfl)
  have s4 := Steps.step s3 (.forward (c := 0) (r := 1) rfl (by decide) rfl)
  have s5 := Steps.step s4 (.opened (c := 0) rfl)
  have s6 := Steps.step s5 (.first (c := 0) (r := 0) rfl rfl)
  have s7 := Steps.step s6 (.send (c := 0) (r := 1) rfl rfl)
  have s8 := Steps.step s7 (.respond (c := 0) (r := 0) rfl rfl)
  obtain ⟨p, s9⟩ := close_steps s8 0 (by decide) (by decide)
  exact ⟨_, s9, rfl, rfl⟩

end Bonsai.Browser
