import Verif.Net.C54

/-!
# C54: requests that wait, and requests that wait for ever
-/
set_option linter.unusedSimpArgs false
set_option linter.unusedVariables false

namespace Bonsai.Net

/-- A request that waits is being worked on by the server, or its response is on its way; not so the first request
of a QUIC connection. -/
def Conn.Waits (t : Transport) (c : Conn) : Prop :=
  ∀ u ∈ c.outs, u ∈ c.received ∨ u ∈ c.inflight ∨ (t = .quic ∧ u = c.first)

/-- The request that is being sent is the first of the connection. -/
def Worker.First (t : Transport) : Worker → Prop
  | .opened u c => c.first = u ∧ t = .quic
  | .sent u c => c.first = u ∧ t = .quic
  | _ => True

structure Inv2 (t : Transport) (s : Client) : Prop where
  first : s.worker.First t
  waits : s.next ≤ 2 ^ 32 → ∀ c, s.worker.conn = some c → c.Waits t

theorem setConn_first {w : Worker} {c c' : Conn} {t : Transport} (h : w.conn = some c) (he : w.First t)
    (hc : c'.first = c.first) : (w.setConn c').First t := by
  cases w <;> simp only [Worker.conn, Option.some.injEq, reduceCtorEq] at h <;> subst h <;>
    first | exact ⟨hc.trans he.1, he.2⟩ | trivial

theorem outs_insert {c : Conn} {u v : Nat} (h : v ∈ (c.insert u).outs) : v = u ∨ v ∈ c.outs := by
  simp only [Conn.outs, Conn.insert, List.map_cons, List.mem_cons] at h
  rcases h with h | h
  · exact .inl h
  · obtain ⟨p, hp, rfl⟩ := List.mem_map.mp h
    exact .inr (List.mem_map.mpr ⟨p, List.mem_of_mem_eraseP hp, rfl⟩)

theorem outs_deliver {c : Conn} {r v : Nat} (h : v ∈ (c.deliver r).outs) : v ∈ c.outs := by
  obtain ⟨p, hp, rfl⟩ := List.mem_map.mp h
  exact List.mem_map.mpr ⟨p, List.mem_of_mem_eraseP hp, rfl⟩

theorem conn_hand {w : Worker} {c : Conn} (h : w.conn = some c) {u : Nat} (hu : u ∈ c.outs) : u ∈ w.hand := by
  cases w <;> simp only [Worker.conn, Option.some.injEq, reduceCtorEq] at h <;> subst h <;>
    simp [Worker.hand, hu]

theorem outs_count {s : Client} {c : Conn} (hi : Inv s) (hw : s.worker.conn = some c) (u : Nat) : c.outs.count u ≤ 1 := by
  have h1 := hi.places u
  unfold Net.places at h1
  simp only [List.count_append] at h1
  have h2 : (if u < s.next then 1 else 0) ≤ 1 := by split <;> omega
  have h3 : c.outs.count u ≤ s.worker.hand.count u := by
    generalize s.worker = w at hw
    cases w <;> simp only [Worker.conn, Option.some.injEq, reduceCtorEq] at hw <;> subst hw <;>
      simp [Worker.hand, List.count_cons]
  omega

/-- The response to a request that waits finds it. -/
theorem delivered_self {s : Client} {c : Conn} (hi : Inv s) (hn : s.next ≤ 2 ^ 32) (hw : s.worker.conn = some c) {r : Nat}
    (hr : r < s.next) (hu : r ∈ c.outs) : c.delivered r = [(r, .response r)] ∧ r ∉ (c.deliver r).outs := by
  have hkeys := (hi.conn c hw).keys
  obtain ⟨p, hp, hpr⟩ := List.mem_map.mp hu
  have hpk := hkeys p hp
  rw [hpr] at hpk
  have hdel : c.delivered r = [(r, .response r)] := by
    unfold Conn.delivered
    cases hf : c.outstanding.find? (·.1 == wireId r) with
    | none =>
      have := List.find?_eq_none.mp hf p hp
      simp [hpk] at this
    | some q =>
      obtain ⟨k, v⟩ := q
      have h1 := List.find?_some hf
      have h2 := List.mem_of_find?_eq_some hf
      have h3 := hkeys _ h2
      simp at h1 h3
      have h4 : v < s.next :=
        hi.below (hand_mem (conn_hand hw (List.mem_map.mpr ⟨_, h2, rfl⟩)))
      have h5 := wireId_inj hn h4 hr (by rw [← h3, h1])
      rw [h5]
  refine ⟨hdel, ?_⟩
  have h1 := deliver_count c r r
  rw [hdel] at h1
  have h2 := outs_count hi hw r
  simp at h1
  intro h3
  have := List.count_pos_iff.mpr h3
  omega

theorem inv2_step {t : Transport} {s s' : Client} {l : Label} (hi : Inv s) (h2 : Inv2 t s) (h : Step t s l s') :
    Inv2 t s' := by
  cases h with
  | submit => exact ⟨h2.first, fun hn c hc => h2.waits (by dsimp only at hn; omega) c hc⟩
  | enqueue h => exact ⟨h2.first, h2.waits⟩
  | replay hq hw => exact ⟨trivial, fun hn c hc => by simp [Worker.conn] at hc⟩
  | take hq hw => exact ⟨trivial, fun hn c hc => by simp [Worker.conn] at hc⟩
  | connectFails hw => exact ⟨trivial, fun hn c hc => by simp [Worker.conn] at hc⟩
  | connectWs ht hw =>
    rename_i u
    refine ⟨trivial, fun hn c hc => ?_⟩
    cases hc
    intro v hv
    have h1 : (((Conn.new u).send u).insert u).outs = [u] := rfl
    rw [h1] at hv
    exact .inl hv
  | connectQuic ht hw =>
    rename_i u
    refine ⟨⟨rfl, ht⟩, fun hn c hc => ?_⟩
    cases hc
    intro v hv
    cases hv
  | sendFirst hw =>
    rename_i u c
    have hf := h2.first
    rw [hw] at hf
    refine ⟨hf, fun hn c' hc => ?_⟩
    cases hc
    intro v hv
    rcases h2.waits hn c (by rw [hw]; rfl) v hv with h | h
    · exact .inl (List.mem_cons_of_mem _ h)
    · exact .inr h
  | sendFirstFails hw => exact ⟨trivial, fun hn c hc => by simp [Worker.conn] at hc⟩
  | insertFirst hw =>
    rename_i u c
    have hf := h2.first
    rw [hw] at hf
    refine ⟨trivial, fun hn c' hc => ?_⟩
    cases hc
    intro v hv
    rcases outs_insert hv with e | hv
    · exact .inr (.inr ⟨hf.2, by rw [e]; exact hf.1.symm⟩)
    · exact h2.waits hn c (by rw [hw]; rfl) v hv
  | send hq hw hopen =>
    rename_i u q c
    refine ⟨trivial, fun hn c' hc => ?_⟩
    cases hc
    intro v hv
    rcases outs_insert hv with e | hv
    · exact .inl (by rw [e]; exact List.mem_cons_self ..)
    · rcases h2.waits hn c (by rw [hw]; rfl) v hv with h | h
      · exact .inl (List.mem_cons_of_mem _ h)
      · exact .inr h
  | sendFails hq hw => exact ⟨trivial, fun hn c hc => by simp [after_conn] at hc⟩
  | respond hw hr =>
    rename_i c r
    refine ⟨setConn_first hw h2.first rfl, fun hn c' hc => ?_⟩
    dsimp only at hc
    rw [setConn_conn hw] at hc
    cases hc
    intro v hv
    rcases h2.waits hn c hw v hv with h | h | h
    · by_cases e : v = r
      · exact .inr (.inl (by rw [e]; exact List.mem_cons_self ..))
      · exact .inl ((List.mem_erase_of_ne e).mpr h)
    · exact .inr (.inl (List.mem_cons_of_mem _ h))
    · exact .inr (.inr h)
  | deliver hw hopen hr =>
    rename_i c r
    refine ⟨setConn_first hw h2.first rfl, fun hn c' hc => ?_⟩
    dsimp only at hc
    rw [setConn_conn hw] at hc
    cases hc
    intro v hv
    have hv' := outs_deliver hv
    by_cases e : v = r
    · subst e
      exact absurd hv (delivered_self hi hn hw ((hi.conn c hw).inflight _ hr) hv').2
    · rcases h2.waits hn c hw v hv' with h | h | h
      · exact .inl h
      · exact .inr (.inl ((List.mem_erase_of_ne e).mpr h))
      · exact .inr (.inr h)
  | readerEnds hw =>
    rename_i c
    refine ⟨setConn_first hw h2.first rfl, fun hn c' hc => ?_⟩
    dsimp only at hc
    rw [setConn_conn hw] at hc
    cases hc
    exact h2.waits hn c hw
  | readerFails hw h => exact ⟨trivial, fun hn c hc => by simp [after_conn] at hc⟩
  | interrupted hq hw h => exact ⟨trivial, fun hn c hc => by simp [after_conn] at hc⟩

theorem inv2_reachable {t : Transport} {s : Client} (h : Reachable t s) : Inv2 t s := by
  have h1 : Inv s ∧ Inv2 t s := by
    induction h with
    | refl => exact ⟨inv_new, trivial, fun _ c hc => by simp [Client.new, Worker.conn] at hc⟩
    | step _ hs _ ih => exact ⟨inv_step ih.1 hs, inv2_step ih.1 ih.2 hs⟩
  exact h1.2

/-- **C54.** While a request waits on a connection, the server is working on it or its response is on its way:
always on a WebSocket, and on QUIC for every request but the one that opened the connection. -/
theorem C54_awaits_response {t : Transport} {s : Client} (h : Reachable t s) (hn : s.next ≤ 2 ^ 32) {c : Conn} {u : Nat}
    (hw : s.worker = .running c) (hu : Outstanding s u) (hf : t = .websocket ∨ u ≠ c.first) :
    u ∈ c.received ∨ u ∈ c.inflight := by
  obtain ⟨c', hc', hu⟩ := hu
  rw [hw] at hc' hu
  cases hc'
  rcases hu with hu | hu
  · rcases (inv2_reachable h).waits hn c (by rw [hw]; rfl) u hu with h | h | ⟨h1, h2⟩
    · exact .inl h
    · exact .inr h
    · rcases hf with hf | hf
      · rw [hf] at h1; cases h1
      · exact absurd h2 hf
  · cases hu

/-- **C54.** When the response to a request that waits arrives, exactly that caller receives it. -/
theorem C54_delivered {t : Transport} {s : Client} (h : Reachable t s) (hn : s.next ≤ 2 ^ 32) {c : Conn} {u : Nat}
    (hw : s.worker = .running c) (hopen : c.ended = false) (hu : Outstanding s u) (hr : u ∈ c.inflight) :
    ∃ s', Step t s .other s' ∧ s'.answers = (u, .response u) :: s.answers := by
  have hi := inv_reachable h
  have hc : s.worker.conn = some c := by rw [hw]; rfl
  have hu' : u ∈ c.outs := by
    obtain ⟨c', hc', hu⟩ := hu
    rw [hw] at hc' hu
    cases hc'
    rcases hu with hu | hu
    · exact hu
    · cases hu
  refine ⟨_, .deliver hc hopen hr, ?_⟩
  dsimp only
  rw [(delivered_self hi hn hc ((hi.conn c hc).inflight _ hr) hu').1]
  rfl

end Bonsai.Net
