import Verif.Net.C54b

/-!
# C54: where it is violated, and examples
-/
set_option linter.unusedSimpArgs false
set_option linter.unusedVariables false

namespace Bonsai.Net

theorem Exec.one {t : Transport} {s s' : Client} {l : Label} (h : Step t s l s') : Exec t AnyLabel s s' :=
  .step (.refl s) h trivial

theorem Exec.trans {t : Transport} {P : Label → Prop} {a b c : Client} (h : Exec t P a b) (h' : Exec t P b c) :
    Exec t P a c := by
  induction h' with
  | refl => exact h
  | step _ hs hp ih => exact .step ih hs hp

theorem Exec.next_le {t : Transport} {P : Label → Prop} {a b : Client} (h : Exec t P a b) : a.next ≤ b.next := by
  induction h with
  | refl => exact Nat.le_refl _
  | step _ hs _ ih => cases hs <;> (dsimp only; omega)

/-! ## The first request of a QUIC connection -/

/-- A request that is in the map, but nobody is working on. -/
def Forgotten (s : Client) (u : Nat) : Prop :=
  ∃ c, s.worker = .running c ∧ u ∈ c.outs ∧ u ∉ c.received ∧ u ∉ c.inflight

theorem Forgotten.spec {s : Client} {u : Nat} (hi : Inv s) (h : Forgotten s u) :
    Outstanding s u ∧ ¬ Answered s u ∧ u ∉ s.queue ∧ u < s.next := by
  obtain ⟨c, hw, ho, hr, hf⟩ := h
  have h1 := hi.below (hand_mem (conn_hand (w := s.worker) (by rw [hw]; rfl) ho))
  have h2 := hi.places u
  rw [if_pos h1] at h2
  unfold Net.places at h2
  simp only [List.count_append] at h2
  have h3 := List.count_pos_iff.mpr (conn_hand (w := s.worker) (by rw [hw]; rfl) ho)
  refine ⟨⟨c, by rw [hw]; rfl, .inl ho⟩, ?_, ?_, h1⟩
  · rintro ⟨a, ha⟩
    have : 0 < (s.answers.map (·.1)).count u := List.count_pos_iff.mpr (List.mem_map.mpr ⟨_, ha, rfl⟩)
    omega
  · intro h4
    have := List.count_pos_iff.mpr h4
    omega

theorem mem_kept {c : Conn} {n u v : Nat} (hc : ConnOk n c) (hn : n ≤ 2 ^ 32) (hu : u < n) (hv : v < n) (hne : v ≠ u)
    (hm : u ∈ c.outs) : u ∈ (c.outstanding.eraseP (·.1 == wireId v)).map (·.2) := by
  obtain ⟨p, hp, rfl⟩ := List.mem_map.mp hm
  refine List.mem_map.mpr ⟨p, ?_, rfl⟩
  refine (List.mem_eraseP_of_neg ?_).mpr hp
  rw [hc.keys p hp]
  intro e
  exact hne (wireId_inj hn hv hu (by simp at e; exact e.symm))

theorem forgotten_step {t : Transport} {s s' : Client} {l : Label} {u : Nat} (hi : Inv s) (hn : s.next ≤ 2 ^ 32)
    (h : Forgotten s u) (hs : Step t s l s') (hl : l ≠ .lost) : Forgotten s' u := by
  obtain ⟨-, -, hq0, hlt⟩ := h.spec hi
  obtain ⟨c, hw, ho, hr, hf⟩ := h
  have hcok := hi.conn c (by rw [hw]; rfl)
  cases hs with
  | submit => exact ⟨c, hw, ho, hr, hf⟩
  | enqueue h => exact ⟨c, hw, ho, hr, hf⟩
  | replay hq hw' => rw [hw] at hw'; cases hw'
  | take hq hw' => rw [hw] at hw'; cases hw'
  | connectFails hw' => rw [hw] at hw'; cases hw'
  | connectWs ht hw' => rw [hw] at hw'; cases hw'
  | connectQuic ht hw' => rw [hw] at hw'; cases hw'
  | sendFirst hw' => rw [hw] at hw'; cases hw'
  | sendFirstFails hw' => rw [hw] at hw'; cases hw'
  | insertFirst hw' => rw [hw] at hw'; cases hw'
  | send hq hw' hopen =>
    rename_i v q c'
    rw [hw] at hw'; cases hw'
    have hv := hi.below (queue_mem (s := s) (u := v) (by rw [hq]; exact List.mem_cons_self ..))
    have hne : v ≠ u := by
      intro e
      rw [hq, e] at hq0
      exact hq0 (List.mem_cons_self ..)
    refine ⟨_, rfl, ?_, ?_, hf⟩
    · exact List.mem_cons_of_mem _ (mem_kept (c := c.send v) (hcok.send hv) hn hlt hv hne ho)
    · intro h
      rcases List.mem_cons.mp h with h | h
      · exact hne h.symm
      · exact hr h
  | sendFails hq hw' => exact absurd rfl hl
  | respond hw' hr' =>
    rename_i c' r
    rw [hw] at hw' ; cases hw'
    refine ⟨{ c with received := c.received.erase r, inflight := r :: c.inflight }, by rw [hw]; rfl, ho,
      fun h => hr (List.mem_of_mem_erase h), ?_⟩
    intro h
    rcases List.mem_cons.mp h with h | h
    · exact hr (h ▸ hr')
    · exact hf h
  | deliver hw' hopen hr' =>
    rename_i c' r
    rw [hw] at hw'; cases hw'
    refine ⟨c.deliver r, by rw [hw]; rfl, ?_, hr, fun h => hf (List.mem_of_mem_erase h)⟩
    exact mem_kept hcok hn hlt (hcok.inflight r hr') (fun e => hf (e ▸ hr')) ho
  | readerEnds hw' =>
    rename_i c'
    rw [hw] at hw'; cases hw'
    exact ⟨{ c with ended := true }, by rw [hw]; rfl, ho, hr, hf⟩
  | readerFails hw' h => exact absurd rfl hl
  | interrupted hq hw' h => exact absurd rfl hl

theorem forgotten_exec {t : Transport} {s s' : Client} {u : Nat} (hi : Inv s) (h : Forgotten s u)
    (he : Exec t (· ≠ .lost) s s') (hn : s'.next ≤ 2 ^ 32) : Forgotten s' u ∧ Inv s' := by
  induction he with
  | refl => exact ⟨h, hi⟩
  | step he hs hp ih =>
    have hle : ∀ {a b : Client} {l : Label}, Step t a l b → a.next ≤ b.next := by
      intro a b l h; cases h <;> (dsimp only; omega)
    obtain ⟨h1, h2⟩ := ih (Nat.le_trans (hle hs) hn)
    exact ⟨forgotten_step h2 (Nat.le_trans (hle hs) hn) h1 hs hp, inv_step h2 hs⟩

/-- After the response to the first request was processed before the request was in the map. -/
def quicForgot : Client := ⟨1, [], [], .running ⟨[(0, 0)], [], [], 0, false⟩, []⟩

theorem quicForgot_reachable : Reachable .quic quicForgot := by
  have h1 : Exec .quic AnyLabel .new ⟨1, [0], [], .idle false, []⟩ := .one .submit
  have h2 : Exec .quic AnyLabel .new ⟨1, [], [0], .idle false, []⟩ := h1.step (.enqueue (u := 0) (by simp)) trivial
  have h3 : Exec .quic AnyLabel .new ⟨1, [], [], .connecting 0, []⟩ := h2.step (.take rfl rfl) trivial
  have h4 : Exec .quic AnyLabel .new ⟨1, [], [], .opened 0 ⟨[], [], [], 0, false⟩, []⟩ :=
    h3.step (.connectQuic rfl rfl) trivial
  have h5 : Exec .quic AnyLabel .new ⟨1, [], [], .sent 0 ⟨[], [0], [], 0, false⟩, []⟩ := h4.step (.sendFirst (u := 0) (c := .new 0) rfl) trivial
  have h6 : Exec .quic AnyLabel .new ⟨1, [], [], .sent 0 ⟨[], [], [0], 0, false⟩, []⟩ :=
    h5.step (.respond (c := ⟨[], [0], [], 0, false⟩) (r := 0) rfl (by simp)) trivial
  have h7 : Exec .quic AnyLabel .new ⟨1, [], [], .sent 0 ⟨[], [], [], 0, false⟩, []⟩ :=
    h6.step (.deliver (c := ⟨[], [], [0], 0, false⟩) (r := 0) rfl rfl (by simp)) trivial
  exact h7.step (.insertFirst (c := ⟨[], [], [], 0, false⟩) (u := 0) rfl) trivial

/-- **C54, violated for QUIC** (quic_worker.rs:83-103): the reader runs before the first request is in the map.  If
the response arrives in between, it is thrown away, and the caller waits as long as the connection lasts, whatever
else happens. -/
theorem C54_violated_quic_first : ∃ s u, Reachable .quic s ∧ Outstanding s u ∧
    ∀ s', Exec .quic (· ≠ .lost) s s' → s'.next ≤ 2 ^ 32 → Outstanding s' u ∧ ¬ Answered s' u := by
  have hi := inv_reachable quicForgot_reachable
  have hf : Forgotten quicForgot 0 := ⟨_, rfl, by decide, by decide, by decide⟩
  refine ⟨quicForgot, 0, quicForgot_reachable, (hf.spec hi).1, ?_⟩
  intro s' he hn
  obtain ⟨h1, h2⟩ := forgotten_exec hi hf he hn
  exact ⟨(h1.spec h2).1, (h1.spec h2).2.1⟩

/-! ## A WebSocket that was closed -/

/-- A closed WebSocket, with nothing to send. -/
def Closed (s : Client) (u : Nat) : Prop :=
  ∃ c, s.worker = .running c ∧ c.ended = true ∧ u ∈ c.outs ∧ s.queue = [] ∧ s.submitting = []

theorem closed_step {s s' : Client} {l : Label} {u : Nat} (h : Closed s u) (hs : Step .websocket s l s')
    (hl : l ≠ .request) : Closed s' u := by
  obtain ⟨c, hw, he, ho, hq, hsub⟩ := h
  cases hs with
  | submit => exact absurd rfl hl
  | enqueue h => rw [hsub] at h; cases h
  | replay hq' hw' => rw [hw] at hw'; cases hw'
  | take hq' hw' => rw [hw] at hw'; cases hw'
  | connectFails hw' => rw [hw] at hw'; cases hw'
  | connectWs ht hw' => rw [hw] at hw'; cases hw'
  | connectQuic ht hw' => rw [hw] at hw'; cases hw'
  | sendFirst hw' => rw [hw] at hw'; cases hw'
  | sendFirstFails hw' => rw [hw] at hw'; cases hw'
  | insertFirst hw' => rw [hw] at hw'; cases hw'
  | send hq' hw' hopen => rw [hq] at hq'; cases hq'
  | sendFails hq' hw' => rw [hq] at hq'; cases hq'
  | respond hw' hr' =>
    rename_i c' r
    rw [hw] at hw' ; cases hw'
    exact ⟨{ c with received := c.received.erase r, inflight := r :: c.inflight }, by rw [hw]; rfl, he, ho, hq, hsub⟩
  | deliver hw' hopen hr' =>
    rw [hw] at hw'; cases hw'
    rw [he] at hopen; cases hopen
  | readerEnds hw' =>
    rw [hw] at hw'; cases hw'
    exact ⟨{ c with ended := true }, by rw [hw]; rfl, rfl, ho, hq, hsub⟩
  | readerFails hw' h =>
    rw [hw] at hw'; cases hw'
    rw [he] at h; simp at h
  | interrupted hq' hw' h => rw [hq] at hq'; cases hq'

/-- One request sent on a WebSocket that was closed since. -/
def wsClosed : Client := ⟨1, [], [], .running ⟨[(0, 0)], [0], [], 0, true⟩, []⟩

theorem wsClosed_reachable : Reachable .websocket wsClosed := by
  have h1 : Exec .websocket AnyLabel .new ⟨1, [0], [], .idle false, []⟩ := .one .submit
  have h2 : Exec .websocket AnyLabel .new ⟨1, [], [0], .idle false, []⟩ := h1.step (.enqueue (u := 0) (by simp)) trivial
  have h3 : Exec .websocket AnyLabel .new ⟨1, [], [], .connecting 0, []⟩ := h2.step (.take rfl rfl) trivial
  have h4 : Exec .websocket AnyLabel .new ⟨1, [], [], .running ⟨[(0, 0)], [0], [], 0, false⟩, []⟩ :=
    h3.step (.connectWs (u := 0) rfl rfl) trivial
  exact h4.step (.readerEnds (c := ⟨[(0, 0)], [0], [], 0, false⟩) rfl) trivial

/-- **C54, violated for WebSockets** (tungstenite_worker.rs:92-97 and 125-140): when the server closes the
connection, the reader ends without an error, and the requests that wait are not answered: as long as nobody makes
another request, never. -/
theorem C54_violated_websocket_close : ∃ s u, Reachable .websocket s ∧ Outstanding s u ∧
    (∀ c, s.worker.conn = some c → c.ended = true) ∧
    ∀ s', Exec .websocket (· ≠ .request) s s' → Outstanding s' u ∧ ¬ Answered s' u := by
  have hi := inv_reachable wsClosed_reachable
  have hc : Closed wsClosed 0 := ⟨_, rfl, rfl, by decide, rfl, rfl⟩
  refine ⟨wsClosed, 0, wsClosed_reachable, ⟨_, rfl, .inl (by decide)⟩, ?_, ?_⟩
  · intro c h; cases h; rfl
  · intro s' he
    have h1 : Closed s' 0 := by
      induction he with
      | refl => exact hc
      | step _ hs hp ih => exact closed_step ih hs hp
    have h2 := inv_exec hi he
    obtain ⟨c, hw, he', ho, -, -⟩ := h1
    refine ⟨⟨c, by rw [hw]; rfl, .inl ho⟩, ?_⟩
    rintro ⟨a, ha⟩
    have h3 := h2.below (answer_mem ha)
    have h4 := h2.places 0
    rw [if_pos h3] at h4
    unfold Net.places at h4
    simp only [List.count_append] at h4
    have h5 := List.count_pos_iff.mpr (conn_hand (w := s'.worker) (by rw [hw]; rfl) ho)
    have : 0 < (s'.answers.map (·.1)).count 0 := List.count_pos_iff.mpr (List.mem_map.mpr ⟨_, ha, rfl⟩)
    omega

/-! ## More than 2^32 requests -/

/-- Request 0 is still being worked on, all others up to `n` were answered. -/
theorem slow_first : ∀ n, n < 2 ^ 32 → ∃ a, Reachable .websocket
    ⟨n + 1, [], [], .running ⟨[(0, 0)], [0], [], 0, false⟩, a⟩
  | 0, _ => by
    have h1 : Exec .websocket AnyLabel .new ⟨1, [0], [], .idle false, []⟩ := .one .submit
    have h2 : Exec .websocket AnyLabel .new ⟨1, [], [0], .idle false, []⟩ := h1.step (.enqueue (u := 0) (by simp)) trivial
    have h3 : Exec .websocket AnyLabel .new ⟨1, [], [], .connecting 0, []⟩ := h2.step (.take rfl rfl) trivial
    exact ⟨[], h3.step (.connectWs (u := 0) rfl rfl) trivial⟩
  | n + 1, hn => by
    obtain ⟨a, h0⟩ := slow_first n (by omega)
    have hid : wireId (n + 1) = n + 1 := Nat.mod_eq_of_lt hn
    have h1 := h0.step .submit trivial
    have h2 := h1.step (.enqueue (u := n + 1) (List.mem_cons_self ..)) trivial
    have h3 := h2.step (.send (u := n + 1) (q := []) (by simp) rfl (.inr rfl)) trivial
    have h4 := h3.step (.respond (r := n + 1) rfl (List.mem_cons_self ..)) trivial
    have h5 := h4.step (.deliver (r := n + 1) rfl rfl (List.mem_cons_self ..)) trivial
    exact ⟨(n + 1, .response (n + 1)) :: a, by
      unfold Reachable
      simpa [Conn.insert, Conn.send, Conn.deliver, Conn.delivered, Conn.replaced, Worker.setConn, hid,
      Worker.conn, List.find?_cons, List.eraseP_cons] using h5⟩

/-- **C54, violated after 2^32 requests** (client.rs:493): the ids start again.  A request that takes long loses its
place to the new request with its id, and that one receives the response made for the old one. -/
theorem C54_violated_wrap : ∃ s v r, Reachable .websocket s ∧ (v, Answer.response r) ∈ s.answers ∧ v ≠ r := by
  obtain ⟨a, h0⟩ := slow_first (2 ^ 32 - 1) (by omega)
  have hid : wireId (2 ^ 32) = 0 := rfl
  have h00 : wireId 0 = 0 := rfl
  rw [show 2 ^ 32 - 1 + 1 = 2 ^ 32 from rfl] at h0
  have hne : (2 ^ 32 : Nat) ≠ 0 := by omega
  generalize (2 ^ 32 : Nat) = N at h0 hid hne
  have h1 := h0.step .submit trivial
  have h2 := h1.step (.enqueue (u := N) (List.mem_cons_self ..)) trivial
  have h3 := h2.step (.send (u := N) (q := []) (by simp) rfl (.inr rfl)) trivial
  have h4 := h3.step (.respond (r := 0) rfl (List.mem_cons_of_mem _ (List.mem_cons_self ..))) trivial
  have h5 := h4.step (.deliver (r := 0) rfl rfl (List.mem_cons_self ..)) trivial
  refine ⟨_, N, 0, h5, ?_, hne⟩
  simp [Conn.insert, Conn.send, Conn.delivered, hid, h00, Worker.setConn, Worker.conn]

/-! ## Examples -/

/-- Two requests on one connection, the second one answered first; then the connection breaks. -/
def twoRequests : Client :=
  ⟨2, [], [], .running ⟨[(0, 0)], [0], [], 0, false⟩, [(1, .response 1)]⟩

theorem twoRequests_reachable : Reachable .websocket twoRequests := by
  have h1 : Exec .websocket AnyLabel .new ⟨1, [0], [], .idle false, []⟩ := .one .submit
  have h2 : Exec .websocket AnyLabel .new ⟨1, [], [0], .idle false, []⟩ := h1.step (.enqueue (u := 0) (by simp)) trivial
  have h3 : Exec .websocket AnyLabel .new ⟨1, [], [], .connecting 0, []⟩ := h2.step (.take rfl rfl) trivial
  have h4 : Exec .websocket AnyLabel .new ⟨1, [], [], .running ⟨[(0, 0)], [0], [], 0, false⟩, []⟩ :=
    h3.step (.connectWs (u := 0) rfl rfl) trivial
  have h5 := h4.step .submit trivial
  have h6 := h5.step (.enqueue (u := 1) (by simp)) trivial
  have h7 := h6.step (.send (u := 1) (q := []) (by simp) rfl (.inr rfl)) trivial
  have h8 := h7.step (.respond (r := 1) rfl (List.mem_cons_self ..)) trivial
  have h9 := h8.step (.deliver (r := 1) rfl rfl (List.mem_cons_self ..)) trivial
  exact h9

-- The hypotheses of the theorems are met: an answered request, and one that waits and is being worked on.
example : (1, Answer.response 1) ∈ twoRequests.answers ∧ twoRequests.next ≤ 2 ^ 32 := ⟨by decide, by decide⟩
example : Outstanding twoRequests 0 := ⟨_, rfl, .inl (by decide)⟩
example : ∃ c, twoRequests.worker = .running c ∧ 0 ∈ c.received := ⟨_, rfl, by decide⟩
-- A loss of the connection: request 0 is answered with an error.
example : ∃ s', Step .websocket twoRequests .lost s' ∧ (0, Answer.error) ∈ s'.answers :=
  ⟨_, .readerFails rfl (.inr rfl), by decide⟩

end Bonsai.Net
