import Verif.Net.Client

/-!
# C54: each request gets its own response
-/
set_option linter.unusedSimpArgs false
set_option linter.unusedVariables false

namespace Bonsai.Net

/-! ## Every request is in exactly one place -/

/-- The requests waiting on a connection. -/
def Conn.outs (c : Conn) : List Nat := c.outstanding.map (·.2)

/-- The requests the worker has. -/
def Worker.hand : Worker → List Nat
  | .idle _ => []
  | .connecting u => [u]
  | .opened u c => u :: c.outs
  | .sent u c => u :: c.outs
  | .running c => c.outs

/-- All requests, answered or not. -/
def places (s : Client) : List Nat :=
  s.submitting ++ (s.queue ++ (s.worker.hand ++ s.answers.map (·.1)))

theorem count_erased (p : Nat × Nat → Bool) (u : Nat) : ∀ l : List (Nat × Nat),
    (l.map (·.2)).count u = ((l.eraseP p).map (·.2)).count u +
      (match l.find? p with | none => 0 | some x => if x.2 = u then 1 else 0)
  | [] => rfl
  | x :: l => by
    simp only [List.eraseP_cons, List.find?_cons]
    cases hp : p x with
    | true => simp [List.count_cons]
    | false => simp only [cond_false, List.map_cons, List.count_cons, count_erased p u l]; split <;> simp <;> omega

theorem insert_count (c : Conn) (u v : Nat) :
    (c.insert u).outs.count v + ((c.replaced u).map (·.1)).count v = (if u = v then 1 else 0) + c.outs.count v := by
  unfold Conn.outs Conn.insert Conn.replaced
  rw [count_erased (·.1 == wireId u) v c.outstanding]
  simp only [List.map_cons, List.count_cons]
  cases c.outstanding.find? (·.1 == wireId u) with
  | none => simp; omega
  | some x => obtain ⟨a, b⟩ := x; simp [List.count_cons]; omega

theorem deliver_count (c : Conn) (r v : Nat) :
    (c.deliver r).outs.count v + ((c.delivered r).map (·.1)).count v = c.outs.count v := by
  unfold Conn.outs Conn.deliver Conn.delivered
  rw [count_erased (·.1 == wireId r) v c.outstanding]
  cases c.outstanding.find? (·.1 == wireId r) with
  | none => simp
  | some x => obtain ⟨a, b⟩ := x; simp [List.count_cons]

theorem disconnected_map (c : Conn) : c.disconnected.map (·.1) = c.outs := by
  simp [Conn.disconnected, Conn.outs, Function.comp_def]

theorem hand_setConn {w : Worker} {c c' : Conn} (h : w.conn = some c) (v : Nat) :
    (w.setConn c').hand.count v + c.outs.count v = w.hand.count v + c'.outs.count v := by
  cases w <;> simp only [Worker.conn, Option.some.injEq, reduceCtorEq] at h <;> subst h <;>
    simp only [Worker.setConn, Worker.hand, List.count_cons] <;> omega

theorem hand_after (c : Conn) : c.afterDisconnect.hand = [] := rfl

/-- Nothing is in the map before the first request. -/
def Worker.Early : Worker → Prop
  | .opened _ c => c.outstanding = []
  | .sent _ c => c.outstanding = []
  | _ => True

theorem places_step {t : Transport} {s s' : Client} {l : Label} (h : Step t s l s') (hearly : s.worker.Early)
    (hi : ∀ u, (places s).count u = if u < s.next then 1 else 0) :
    ∀ u, (places s').count u = if u < s'.next then 1 else 0 := by
  intro v
  have hv := hi v
  have herase : ∀ u, u ∈ s.submitting → (s.submitting.erase u).count v + (if u = v then 1 else 0) = s.submitting.count v := by
    intro u hu
    rw [List.count_erase]
    by_cases e : u = v
    · subst e
      have := List.count_pos_iff.mpr hu
      simp; omega
    · simp [e, Ne.symm e, beq_iff_eq]
  unfold places at hv ⊢
  simp only [List.count_append] at hv ⊢
  cases h with
  | submit =>
    simp only [List.count_cons, beq_iff_eq]
    by_cases e : s.next = v
    · subst e; simp at hv ⊢; omega
    · simp only [e, if_false, Nat.add_zero]
      rw [hv]
      by_cases h1 : v < s.next
      · simp [h1, Nat.lt_succ_of_lt h1]
      · have : ¬ v < s.next + 1 := by omega
        simp [h1, this]
  | enqueue h =>
    rename_i u
    have := herase u h
    simp only [List.count_append, List.count_cons, List.count_nil, beq_iff_eq]
    omega
  | replay hq hw =>
    simp only [hq, hw, Worker.hand, List.count_cons, List.count_nil, List.map_cons, beq_iff_eq] at hv ⊢
    omega
  | take hq hw =>
    simp only [hq, hw, Worker.hand, List.count_cons, List.count_nil, List.map_cons, beq_iff_eq] at hv ⊢
    omega
  | connectFails hw =>
    simp only [hw, Worker.hand, List.count_cons, List.count_nil, List.map_cons, beq_iff_eq] at hv ⊢
    omega
  | connectWs ht hw =>
    rename_i u
    have h1 : (((Conn.new u).send u).insert u).outs = [u] := rfl
    simp only [hw, Worker.hand, h1] at hv ⊢
    omega
  | connectQuic ht hw =>
    rename_i u
    have h1 : (Conn.new u).outs = [] := rfl
    simp only [hw, Worker.hand, h1] at hv ⊢
    omega
  | sendFirst hw =>
    rename_i u c
    have h1 : (c.send u).outs = c.outs := rfl
    simp only [hw, Worker.hand, h1] at hv ⊢
    omega
  | sendFirstFails hw =>
    rename_i u c
    have h1 : c.outs = [] := by
      rw [hw] at hearly
      unfold Conn.outs
      rw [show c.outstanding = [] from hearly]
      rfl
    simp only [hw, Worker.hand, List.count_cons, List.count_nil, List.map_cons, beq_iff_eq, h1] at hv ⊢
    omega
  | insertFirst hw =>
    rename_i u c
    have h1 := insert_count c u v
    simp only [hw, Worker.hand, List.count_cons, List.map_append, List.count_append, beq_iff_eq] at hv ⊢
    omega
  | send hq hw hopen =>
    rename_i u q c
    have h1 := insert_count (c.send u) u v
    have h2 : (c.send u).outs = c.outs := rfl
    have h3 : (c.send u).replaced u = c.replaced u := rfl
    rw [h2, h3] at h1
    simp only [hq, hw, Worker.hand, List.count_cons, List.map_append, List.count_append, beq_iff_eq] at hv ⊢
    omega
  | sendFails hq hw =>
    simp only [hq, hw, hand_after, Worker.hand, List.count_cons, List.map_append, List.count_append, disconnected_map,
      List.map_cons, List.cons_append, List.count_nil, beq_iff_eq, Conn.afterDisconnect] at hv ⊢
    omega
  | respond hw hr =>
    rename_i c r
    have h1 := hand_setConn (c' := { c with received := c.received.erase r, inflight := r :: c.inflight }) hw v
    have h2 : (Conn.outs { c with received := c.received.erase r, inflight := r :: c.inflight }) = c.outs := rfl
    rw [h2] at h1
    dsimp only
    omega
  | deliver hw hopen hr =>
    rename_i c r
    have h1 := hand_setConn (c' := c.deliver r) hw v
    have h2 := deliver_count c r v
    simp only [List.map_append, List.count_append]
    omega
  | readerEnds hw =>
    rename_i c
    have h1 := hand_setConn (c' := { c with ended := true }) hw v
    have h2 : (Conn.outs { c with ended := true }) = c.outs := rfl
    rw [h2] at h1
    dsimp only
    omega
  | readerFails hw h =>
    simp only [hw, hand_after, Worker.hand, List.count_cons, List.map_append, List.count_append, disconnected_map,
      List.map_cons, List.count_nil, beq_iff_eq, Conn.afterDisconnect] at hv ⊢
    omega
  | interrupted hq hw h =>
    simp only [hq, hw, hand_after, Worker.hand, List.count_cons, List.map_append, List.count_append, disconnected_map,
      List.map_cons, List.cons_append, List.count_nil, beq_iff_eq, Conn.afterDisconnect] at hv ⊢
    omega

/-! ## The map and the responses -/

/-- What is known of a connection. -/
structure ConnOk (n : Nat) (c : Conn) : Prop where
  keys : ∀ p ∈ c.outstanding, p.1 = wireId p.2
  received : ∀ r ∈ c.received, r < n
  inflight : ∀ r ∈ c.inflight, r < n

theorem ConnOk.mono {n m : Nat} {c : Conn} (h : ConnOk n c) (hle : n ≤ m) : ConnOk m c :=
  ⟨h.keys, fun r hr => Nat.lt_of_lt_of_le (h.received r hr) hle, fun r hr => Nat.lt_of_lt_of_le (h.inflight r hr) hle⟩

theorem ConnOk.new (n u : Nat) : ConnOk n (.new u) := by
  constructor <;> intro x hx <;> cases hx

theorem ConnOk.send {n u : Nat} {c : Conn} (h : ConnOk n c) (hu : u < n) : ConnOk n (c.send u) := by
  refine ⟨h.keys, ?_, h.inflight⟩
  intro r hr
  rcases List.mem_cons.mp hr with e | hr
  · exact e ▸ hu
  · exact h.received r hr

theorem ConnOk.insert {n u : Nat} {c : Conn} (h : ConnOk n c) : ConnOk n (c.insert u) := by
  refine ⟨?_, h.received, h.inflight⟩
  intro p hp
  rcases List.mem_cons.mp hp with e | hp
  · rw [e]
  · exact h.keys p (List.mem_of_mem_eraseP hp)

theorem ConnOk.respond {n r : Nat} {c : Conn} (h : ConnOk n c) (hr : r ∈ c.received) :
    ConnOk n { c with received := c.received.erase r, inflight := r :: c.inflight } := by
  refine ⟨h.keys, fun x hx => h.received x (List.mem_of_mem_erase hx), ?_⟩
  intro x hx
  rcases List.mem_cons.mp hx with e | hx
  · exact e ▸ h.received r hr
  · exact h.inflight x hx

theorem ConnOk.deliver {n r : Nat} {c : Conn} (h : ConnOk n c) : ConnOk n (c.deliver r) :=
  ⟨fun p hp => h.keys p (List.mem_of_mem_eraseP hp), h.received, fun x hx => h.inflight x (List.mem_of_mem_erase hx)⟩

theorem setConn_conn {w : Worker} {c c' : Conn} (h : w.conn = some c) : (w.setConn c').conn = some c' := by
  cases w <;> simp only [Worker.conn, Option.some.injEq, reduceCtorEq] at h <;> rfl

theorem setConn_early {w : Worker} {c c' : Conn} (h : w.conn = some c) (he : w.Early)
    (hc : c.outstanding = [] → c'.outstanding = []) : (w.setConn c').Early := by
  cases w <;> simp only [Worker.conn, Option.some.injEq, reduceCtorEq] at h <;> subst h <;>
    first | exact hc he | trivial

theorem replaced_error {c : Conn} {u v : Nat} {a : Answer} (h : (v, a) ∈ c.replaced u) : a = .dropped := by
  unfold Conn.replaced at h
  split at h
  · cases h
  · simp at h; exact h.2

theorem disconnected_error {c : Conn} {v : Nat} {a : Answer} (h : (v, a) ∈ c.disconnected) : a = .error := by
  simp only [Conn.disconnected, List.mem_map, Prod.mk.injEq] at h
  obtain ⟨_, _, _, h⟩ := h
  exact h.symm

theorem delivered_spec {c : Conn} {r v : Nat} {a : Answer} {n : Nat} (hc : ConnOk n c) (h : (v, a) ∈ c.delivered r) :
    a = .response r ∧ wireId v = wireId r := by
  unfold Conn.delivered at h
  split at h
  · cases h
  · rename_i k x hf
    simp at h
    obtain ⟨rfl, rfl⟩ := h
    have h1 := List.find?_some hf
    have h2 := hc.keys _ (List.mem_of_find?_eq_some hf)
    simp at h1 h2
    exact ⟨rfl, by rw [← h2, h1]⟩

/-- The invariant of a client. -/
structure Inv (s : Client) : Prop where
  places : ∀ u, (places s).count u = if u < s.next then 1 else 0
  early : s.worker.Early
  conn : ∀ c, s.worker.conn = some c → ConnOk s.next c
  answers : ∀ v r, (v, Answer.response r) ∈ s.answers → wireId v = wireId r ∧ r < s.next

theorem Inv.below {s : Client} (h : Inv s) {u : Nat} (hu : u ∈ Net.places s) : u < s.next := by
  have h1 := h.places u
  have h2 := List.count_pos_iff.mpr hu
  by_cases h3 : u < s.next
  · exact h3
  · rw [if_neg h3] at h1; omega

theorem queue_mem {s : Client} {u : Nat} (h : u ∈ s.queue) : u ∈ Net.places s := by
  unfold Net.places
  exact List.mem_append_right _ (List.mem_append_left _ h)

theorem hand_mem {s : Client} {u : Nat} (h : u ∈ s.worker.hand) : u ∈ Net.places s := by
  unfold Net.places
  exact List.mem_append_right _ (List.mem_append_right _ (List.mem_append_left _ h))

theorem after_conn (c : Conn) : c.afterDisconnect.conn = none := rfl

theorem inv_step {t : Transport} {s s' : Client} {l : Label} (hi : Inv s) (h : Step t s l s') : Inv s' := by
  have hp := places_step h hi.early hi.places
  cases h with
  | submit =>
    exact ⟨hp, hi.early, fun c hc => (hi.conn c hc).mono (Nat.le_succ _),
      fun v r hr => ⟨(hi.answers v r hr).1, Nat.lt_succ_of_lt (hi.answers v r hr).2⟩⟩
  | enqueue h => exact ⟨hp, hi.early, hi.conn, hi.answers⟩
  | replay hq hw =>
    refine ⟨hp, trivial, fun c hc => by simp [Worker.conn] at hc, ?_⟩
    intro v r hr
    simp at hr
    exact hi.answers v r hr
  | take hq hw => exact ⟨hp, trivial, fun c hc => by simp [Worker.conn] at hc, hi.answers⟩
  | connectFails hw =>
    refine ⟨hp, trivial, fun c hc => by simp [Worker.conn] at hc, ?_⟩
    intro v r hr
    simp at hr
    exact hi.answers v r hr
  | connectWs ht hw =>
    rename_i u
    have hu := hi.below (hand_mem (s := s) (u := u) (by rw [hw]; exact List.mem_cons_self ..))
    refine ⟨hp, trivial, ?_, hi.answers⟩
    intro c hc
    cases hc
    exact ((ConnOk.new _ u).send hu).insert
  | connectQuic ht hw =>
    rename_i u
    refine ⟨hp, rfl, ?_, hi.answers⟩
    intro c hc
    cases hc
    exact ConnOk.new _ u
  | sendFirst hw =>
    rename_i u c
    have hu := hi.below (hand_mem (s := s) (u := u) (by rw [hw]; exact List.mem_cons_self ..))
    have he := hi.early
    rw [hw] at he
    refine ⟨hp, he, ?_, hi.answers⟩
    intro c' hc
    cases hc
    exact (hi.conn c (by rw [hw]; rfl)).send hu
  | sendFirstFails hw =>
    refine ⟨hp, trivial, fun c hc => by simp [Worker.conn] at hc, ?_⟩
    intro v r hr
    simp at hr
    exact hi.answers v r hr
  | insertFirst hw =>
    rename_i u c
    refine ⟨hp, trivial, ?_, ?_⟩
    · intro c' hc
      cases hc
      exact (hi.conn c (by rw [hw]; rfl)).insert
    · intro v r hr
      rcases List.mem_append.mp hr with hr | hr
      · exact absurd (replaced_error hr) (by simp)
      · exact hi.answers v r hr
  | send hq hw hopen =>
    rename_i u q c
    have hu := hi.below (queue_mem (s := s) (u := u) (by rw [hq]; exact List.mem_cons_self ..))
    refine ⟨hp, trivial, ?_, ?_⟩
    · intro c' hc
      cases hc
      exact ((hi.conn c (by rw [hw]; rfl)).send hu).insert
    · intro v r hr
      rcases List.mem_append.mp hr with hr | hr
      · exact absurd (replaced_error hr) (by simp)
      · exact hi.answers v r hr
  | sendFails hq hw =>
    refine ⟨hp, trivial, fun c hc => by simp [after_conn] at hc, ?_⟩
    intro v r hr
    rcases List.mem_cons.mp hr with hr | hr
    · simp at hr
    rcases List.mem_append.mp hr with hr | hr
    · exact absurd (disconnected_error hr) (by simp)
    · exact hi.answers v r hr
  | respond hw hr =>
    rename_i c r
    refine ⟨hp, setConn_early hw hi.early id, ?_, hi.answers⟩
    intro c' hc
    dsimp only at hc
    rw [setConn_conn hw] at hc
    cases hc
    exact (hi.conn c hw).respond hr
  | deliver hw hopen hr =>
    rename_i c r
    refine ⟨hp, setConn_early hw hi.early (fun h => by simp [Conn.deliver, h]), ?_, ?_⟩
    · intro c' hc
      dsimp only at hc
      rw [setConn_conn hw] at hc
      cases hc
      exact (hi.conn c hw).deliver
    · intro v x hx
      rcases List.mem_append.mp hx with hx | hx
      · obtain ⟨h1, h2⟩ := delivered_spec (hi.conn c hw) hx
        cases h1
        exact ⟨h2, (hi.conn c hw).inflight _ hr⟩
      · exact hi.answers v x hx
  | readerEnds hw =>
    rename_i c
    refine ⟨hp, setConn_early hw hi.early id, ?_, hi.answers⟩
    intro c' hc
    dsimp only at hc
    rw [setConn_conn hw] at hc
    cases hc
    exact ⟨(hi.conn c hw).keys, (hi.conn c hw).received, (hi.conn c hw).inflight⟩
  | readerFails hw h =>
    refine ⟨hp, trivial, fun c hc => by simp [after_conn] at hc, ?_⟩
    intro v r hr
    rcases List.mem_append.mp hr with hr | hr
    · exact absurd (disconnected_error hr) (by simp)
    · exact hi.answers v r hr
  | interrupted hq hw h =>
    refine ⟨hp, trivial, fun c hc => by simp [after_conn] at hc, ?_⟩
    intro v r hr
    rcases List.mem_cons.mp hr with hr | hr
    · simp at hr
    rcases List.mem_append.mp hr with hr | hr
    · exact absurd (disconnected_error hr) (by simp)
    · exact hi.answers v r hr

theorem inv_new : Inv .new :=
  ⟨fun u => by simp [Net.places, Client.new, Worker.hand], trivial, fun c hc => by simp [Client.new, Worker.conn] at hc,
    fun v r hr => by cases hr⟩

theorem inv_exec {t : Transport} {P : Label → Prop} {s s' : Client} (hi : Inv s) (h : Exec t P s s') : Inv s' := by
  induction h with
  | refl => exact hi
  | step _ hs _ ih => exact inv_step ih hs

theorem inv_reachable {t : Transport} {s : Client} (h : Reachable t s) : Inv s := inv_exec inv_new h

/-! ## Theorems -/

theorem wireId_inj {a b n : Nat} (hn : n ≤ 2 ^ 32) (ha : a < n) (hb : b < n) (h : wireId a = wireId b) : a = b := by
  unfold wireId at h
  rw [Nat.mod_eq_of_lt (by omega), Nat.mod_eq_of_lt (by omega)] at h
  exact h

theorem answer_mem {s : Client} {v : Nat} {a : Answer} (h : (v, a) ∈ s.answers) : v ∈ Net.places s := by
  unfold Net.places
  exact List.mem_append_right _ (List.mem_append_right _ (List.mem_append_right _ (List.mem_map.mpr ⟨_, h, rfl⟩)))

/-- **C54.** A response given to a caller is the server's response to that caller's request, as long as the client
made at most 2^32 requests. -/
theorem C54_own_response {t : Transport} {s : Client} (h : Reachable t s) (hn : s.next ≤ 2 ^ 32) {v r : Nat}
    (ha : (v, Answer.response r) ∈ s.answers) : v = r := by
  have hi := inv_reachable h
  obtain ⟨h1, h2⟩ := hi.answers v r ha
  exact wireId_inj hn (hi.below (answer_mem ha)) h2 h1

/-- For any number of requests, their distance is a multiple of 2^32. -/
theorem C54_own_response_modulo {t : Transport} {s : Client} (h : Reachable t s) {v r : Nat}
    (ha : (v, Answer.response r) ∈ s.answers) : v % 2 ^ 32 = r % 2 ^ 32 ∧ r < s.next :=
  (inv_reachable h).answers v r ha

/-- **C54.** A request is answered at most once: the answers do not contain a request twice. -/
theorem C54_at_most_once {t : Transport} {s : Client} (h : Reachable t s) (u : Nat) :
    (s.answers.map (·.1)).count u ≤ 1 := by
  have h1 := (inv_reachable h).places u
  unfold Net.places at h1
  simp only [List.count_append] at h1
  have h2 : (if u < s.next then 1 else 0) ≤ 1 := by split <;> omega
  omega

/-- **C54.** Only requests that were made are answered. -/
theorem C54_only_requests {t : Transport} {s : Client} (h : Reachable t s) {u : Nat} (ha : Answered s u) :
    u < s.next := by
  obtain ⟨a, ha⟩ := ha
  exact (inv_reachable h).below (answer_mem ha)

/-- **C54.** No request is lost by the client: each one is on its way to the worker, held by the worker, or
answered. -/
theorem C54_never_lost {t : Transport} {s : Client} (h : Reachable t s) {u : Nat} (hu : u < s.next) :
    u ∈ s.submitting ∨ u ∈ s.queue ∨ s.worker = .connecting u ∨ (∃ c, s.worker = .opened u c) ∨ Outstanding s u ∨
      Answered s u := by
  have hi := inv_reachable h
  have h1 := hi.places u
  rw [if_pos hu] at h1
  have h2 : u ∈ Net.places s := List.count_pos_iff.mp (by omega)
  unfold Net.places at h2
  rcases List.mem_append.mp h2 with h2 | h2
  · exact .inl h2
  rcases List.mem_append.mp h2 with h2 | h2
  · exact .inr (.inl h2)
  rcases List.mem_append.mp h2 with h2 | h2
  · refine .inr (.inr ?_)
    have he := hi.early
    unfold Outstanding
    generalize s.worker = w at h2 he
    cases w with
    | idle b => cases h2
    | connecting x => simp [Worker.hand] at h2; exact .inl (by rw [h2])
    | opened x c =>
      simp only [Worker.Early] at he
      simp [Worker.hand, Conn.outs, he] at h2
      exact .inr (.inl ⟨c, by rw [h2]⟩)
    | sent x c =>
      simp only [Worker.Early] at he
      simp [Worker.hand, Conn.outs, he] at h2
      exact .inr (.inr (.inl ⟨c, rfl, .inr (by rw [h2])⟩))
    | running c => exact .inr (.inr (.inl ⟨c, rfl, .inl h2⟩))
  · obtain ⟨p, hp, rfl⟩ := List.mem_map.mp h2
    exact .inr (.inr (.inr (.inr (.inr ⟨p.2, hp⟩))))

/-- **C54.** When the connection is lost, every request that waited for a response has been answered with an
error, and nothing waits any more. -/
theorem C54_disconnect_answers {t : Transport} {s s' : Client} (hs : Step t s .lost s') (h : Reachable t s) {u : Nat}
    (hu : Outstanding s u) : (∃ a, (u, a) ∈ s'.answers ∧ a.isError = true) ∧ ¬ ∃ v, Outstanding s' v := by
  have he := (inv_reachable h).early
  obtain ⟨c₀, hc₀, hu⟩ := hu
  have hdis : ∀ c, s.worker = .running c → (u, Answer.error) ∈ c.disconnected := by
    intro c hw
    rw [hw] at hc₀ hu
    cases hc₀
    rcases hu with hu | hu
    · simp only [Conn.disconnected, List.mem_map] at hu ⊢
      obtain ⟨p, hp, rfl⟩ := hu
      exact ⟨p, hp, rfl⟩
    · cases hu
  cases hs with
  | sendFirstFails hw =>
    rename_i x c
    rw [hw] at hc₀ hu he
    cases hc₀
    simp only [Worker.Early] at he
    rcases hu with hu | hu
    · simp [he] at hu
    · cases hu
  | sendFails hq hw =>
    refine ⟨⟨.error, List.mem_cons_of_mem _ (List.mem_append_left _ (hdis _ hw)), rfl⟩, ?_⟩
    rintro ⟨v, c', hc', _⟩
    simp [Conn.afterDisconnect, Worker.conn] at hc'
  | readerFails hw h =>
    refine ⟨⟨.error, List.mem_append_left _ (hdis _ hw), rfl⟩, ?_⟩
    rintro ⟨v, c', hc', _⟩
    simp [Conn.afterDisconnect, Worker.conn] at hc'
  | interrupted hq hw h =>
    refine ⟨⟨.error, List.mem_cons_of_mem _ (List.mem_append_left _ (hdis _ hw)), rfl⟩, ?_⟩
    rintro ⟨v, c', hc', _⟩
    simp [Conn.afterDisconnect, Worker.conn] at hc'

end Bonsai.Net
