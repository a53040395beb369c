import Verif.Pubsub.C67b

/-!
# C67: where subscribers are failed, and executions that meet the hypotheses of the theorems
-/
set_option linter.unusedSimpArgs false
set_option linter.unusedVariables false

namespace Bonsai.Pubsub
open Bonsai Bonsai.Names

def psDb : String := "db"

theorem psDb_ok : NullFree psDb := by unfold NullFree psDb; decide

/-- One client, connected, with subscriber 1 in channel 0, subscribed to topic `[7]`. -/
theorem ps_subscribed (tp : Transport) : ∃ w, Exec World.initial
    ([.connected 0 0] ++ .created 1 psDb (.client 0 none) :: ([] ++ .registered 0 1 0 ::
      [.subscribed 1 [7]])) w ∧
    w = { World.initial with
      links := [(0, tp)], up := [0], maps := setAt (fun _ => []) 0 [(1, 0)], handles := [(0, 1, 0)], chans := 1
      table := ⟨[(1, ⟨psDb, .client 0 none, some 0, [databaseTopic psDb [7]], []⟩)], 1⟩ } :=
  ⟨_, .snoc (.snoc (.snoc (.snoc (.nil _) (Step.connect _ 0 tp (by simp [World.initial])))
    (Step.create _ 0 none psDb psDb_ok (by simp [World.initial])))
    (Step.register _ 0 1 0 tp (by simp [World.initial]) (by simp [World.initial])))
    (Step.call _ _ _ (Table.Step.subscribe _ (.client 0 none) 1 [7] ⟨by simp, _, rfl, rfl⟩)), rfl⟩

/-- The hypotheses of `C67_remote_only_wanted` and `C67_remote_complete_partial` are met: a message is
published in the database, one in another database, one on another topic; the first is delivered. -/
example : ∃ tr₃ w, Exec World.initial
    ([.connected 0 0] ++ .created 1 psDb (.client 0 none) :: ([] ++ .registered 0 1 0 :: tr₃)) w ∧
    NoRestart tr₃ ∧ w.got 0 = [⟨[7], [1]⟩] ∧ 0 ∈ w.up ∧
    wanted 1 psDb (.client 0 none) [] ([] ++ .registered 0 1 0 :: tr₃) = [⟨[7], [1]⟩] := by
  obtain ⟨w, e, rfl⟩ := ps_subscribed .webSocket
  refine ⟨[.subscribed 1 [7], .published "other" [[7]] [0], .published psDb [[8], [7]] [1], .moved, .moved],
    _, .snoc (.snoc (.snoc (.snoc e
      (Step.call _ _ _ (Table.Step.publish _ "other" [[7]] [0] (by decide))))
      (Step.call _ _ _ (Table.Step.publish _ psDb [[8], [7]] [1] psDb_ok)))
      (Step.forward _ 1 ⟨psDb, .client 0 none, some 0, [databaseTopic psDb [7]], [⟨databaseTopic psDb [7], [1]⟩]⟩
        0 ⟨databaseTopic psDb [7], [1]⟩ [] (by decide +kernel) rfl rfl (by simp)))
      (Step.deliver _ 0 0 1 .webSocket ⟨[7], [1]⟩ [] (by simp) (by decide +kernel)),
    by simp [NoRestart], by decide +kernel, by simp, by decide +kernel⟩

/-- The hypotheses of `C67_local` are met. -/
example : ∃ tr₂ w, Exec World.initial ([] ++ .created 1 psDb .handle :: tr₂) w ∧ NoRestart tr₂ ∧
    w.taken 1 = [⟨[7], [1]⟩] ∧ w.pending 1 = [⟨[7], [2]⟩] ∧
    wanted 1 psDb .handle [] tr₂ = [⟨[7], [1]⟩, ⟨[7], [2]⟩] := by
  refine ⟨[.published psDb [[7]] [0], .subscribed 1 [7], .published psDb [[7]] [1], .moved,
      .published psDb [[7]] [2], .ended 1, .published psDb [[7]] [3]],
    _, .snoc (.snoc (.snoc (.snoc (.snoc (.snoc (.snoc (.snoc (.nil _)
      (Step.call _ _ _ (Table.Step.create _ psDb psDb_ok)))
      (Step.call _ _ _ (Table.Step.publish _ psDb [[7]] [0] psDb_ok)))
      (Step.call _ _ _ (Table.Step.subscribe _ .handle 1 [7] ⟨by simp, _, rfl, rfl⟩)))
      (Step.call _ _ _ (Table.Step.publish _ psDb [[7]] [1] psDb_ok)))
      (Step.receive _ 1 ⟨psDb, .handle, none, [databaseTopic psDb [7]], [⟨databaseTopic psDb [7], [1]⟩]⟩
        ⟨databaseTopic psDb [7], [1]⟩ [] (by decide +kernel) rfl rfl))
      (Step.call _ _ _ (Table.Step.publish _ psDb [[7]] [2] psDb_ok)))
      (Step.call _ _ _ (Table.Step.finish _ .handle 1 ⟨by simp,
        ⟨psDb, .handle, none, [databaseTopic psDb [7]], [⟨databaseTopic psDb [7], [2]⟩]⟩, by decide +kernel, rfl⟩)))
      (Step.call _ _ _ (Table.Step.publish _ psDb [[7]] [3] psDb_ok)),
    by simp [NoRestart], by decide +kernel, by decide +kernel, by decide +kernel⟩

/-- The hypotheses of `C67_told_partial` are met. -/
example : ∃ tr₃ w, Exec World.initial
    ([.connected 0 0] ++ .created 1 psDb (.client 0 none) :: ([] ++ .registered 0 1 0 :: tr₃)) w ∧
    Label.lost 0 ∈ tr₃ ∧ w.links[0]? = some (0, .webSocket) ∧ w.closed = [0] := by
  obtain ⟨w, e, rfl⟩ := ps_subscribed .webSocket
  exact ⟨[.subscribed 1 [7], .lost 0], _, .snoc e (Step.lose _ 0 0 .webSocket (by simp) (by simp)), by simp,
    rfl, rfl⟩

/-- **C67 violated**: a subscriber of a client that uses QUIC is not told when its connection is lost
(quic_worker.rs:35 clears the map only when the worker starts): the client connects again, a message it
is subscribed to is published, the subscriber neither receives it nor ends. -/
theorem C67_violated_quic_not_told : ∃ tr₃ w, Exec World.initial
    ([.connected 0 0] ++ .created 1 psDb (.client 0 none) :: ([] ++ .registered 0 1 0 :: tr₃)) w ∧
    NoRestart tr₃ ∧ Label.lost 0 ∈ tr₃ ∧ (∀ k, Label.dropped k 1 0 ∉ tr₃) ∧
    (0, 1, 0) ∈ w.handles ∧ 0 ∉ w.closed ∧ w.up = [1] ∧ w.got 0 = [] ∧ w.wire 1 = [] ∧ w.pending 1 = [] ∧
    wanted 1 psDb (.client 0 none) [] ([] ++ .registered 0 1 0 :: tr₃) = [⟨[7], [1]⟩] := by
  obtain ⟨w, e, rfl⟩ := ps_subscribed .quic
  exact ⟨[.subscribed 1 [7], .lost 0, .connected 1 0, .published psDb [[7]] [1], .ended 1], _,
    .snoc (.snoc (.snoc (.snoc e (Step.lose _ 0 0 .quic (by simp) (by simp)))
      (Step.connect _ 0 .quic (by simp)))
      (Step.call _ _ _ (Table.Step.publish _ psDb [[7]] [1] psDb_ok)))
      (Step.forwardFails _ 1 ⟨psDb, .client 0 none, some 0, [databaseTopic psDb [7]], [⟨databaseTopic psDb [7], [1]⟩]⟩
        0 ⟨databaseTopic psDb [7], [1]⟩ [] (by decide +kernel) rfl rfl (by simp)),
    by simp [NoRestart], by simp, by simp, by simp, by decide +kernel, by decide +kernel, by decide +kernel,
    by decide +kernel, by decide +kernel, by decide +kernel⟩

/-- **C67 violated**, WebSockets: the connection is lost between the answer to `create_subscriber` and the
client's `register_subscriber`: the entry is made after the map was cleared, the subscriber is never
told. -/
theorem C67_violated_webSocket_not_told : ∃ w, Exec World.initial
    ([.connected 0 0] ++ .created 1 psDb (.client 0 none) :: ([.lost 0] ++ .registered 0 1 0 ::
      [.connected 1 0])) w ∧
    w.links = [(0, .webSocket), (0, .webSocket)] ∧ (0, 1, 0) ∈ w.handles ∧ 0 ∉ w.closed ∧ w.up = [1] :=
  ⟨_, .snoc (.snoc (.snoc (.snoc (.snoc (.nil _) (Step.connect _ 0 .webSocket (by simp [World.initial])))
    (Step.create _ 0 none psDb psDb_ok (by simp [World.initial])))
    (Step.lose _ 0 0 .webSocket (by simp [World.initial]) (by simp [World.initial])))
    (Step.register _ 0 1 0 .webSocket (by simp [World.initial]) (by simp [World.initial])))
    (Step.connect _ 0 .webSocket (by simp [World.initial])), rfl, by decide +kernel, by decide +kernel,
    by decide +kernel⟩

/-- **C67 violated**: the server restarts, the client creates another subscriber, which gets the id of its
old one; when the client then drops the old subscriber, the new one ends: its channel is closed on the
client and it is unregistered on the server, although nobody dropped it and its connection is up. -/
theorem C67_violated_restart : ∃ tr₃ w, Exec World.initial
    ([.connected 0 0, .created 1 psDb (.client 0 none), .registered 0 1 0, .subscribed 1 [7], .lost 0, .restarted,
      .connected 1 0] ++ .created 1 psDb (.client 1 none) :: ([] ++ .registered 1 1 1 :: tr₃)) w ∧
    NoRestart tr₃ ∧ (∀ k, Label.dropped k 1 1 ∉ tr₃) ∧ (0, 1, 1) ∈ w.handles ∧ w.up = [1] ∧
    1 ∈ w.closed ∧ (w.table.sub 1).map (·.owner) = some .nobody := by
  obtain ⟨w, e, rfl⟩ := ps_subscribed .quic
  exact ⟨[.ended 1, .dropped 0 1 0], _,
    .snoc (.snoc (.snoc (.snoc (.snoc (.snoc (.snoc e (Step.lose _ 0 0 .quic (by simp) (by simp)))
      (Step.restart _ (by decide +kernel)))
      (Step.connect _ 0 .quic (by simp)))
      (Step.create _ 1 none psDb psDb_ok (by simp)))
      (Step.register _ 1 1 0 .quic (by simp) (by simp)))
      (Step.call _ _ _ (Table.Step.finish _ (.client 1 none) 1 ⟨by simp, _, rfl, rfl⟩)))
      (Step.forget _ 0 1 0 (by simp)),
    by simp [NoRestart], by simp, by simp, by decide +kernel, by decide +kernel, by decide +kernel⟩

/-- **C67 violated**: a subscriber does not end with its connection: the client is gone and no connection
is up, the server goes on collecting for it. -/
theorem C67_violated_outlives_connection : ∃ tr₃ w, Exec World.initial
    ([.connected 0 0] ++ .created 1 psDb (.client 0 none) :: ([] ++ .registered 0 1 0 :: tr₃)) w ∧
    w.up = [] ∧ (w.table.sub 1).map (·.owner) = some (.client 0 none) ∧
    w.pending 1 = [⟨[7], [1]⟩, ⟨[7], [2]⟩] := by
  obtain ⟨w, e, rfl⟩ := ps_subscribed .webSocket
  exact ⟨[.subscribed 1 [7], .lost 0, .published psDb [[7]] [1], .published psDb [[7]] [2]], _,
    .snoc (.snoc (.snoc e (Step.lose _ 0 0 .webSocket (by simp) (by simp)))
      (Step.call _ _ _ (Table.Step.publish _ psDb [[7]] [1] psDb_ok)))
      (Step.call _ _ _ (Table.Step.publish _ psDb [[7]] [2] psDb_ok)),
    by decide +kernel, by decide +kernel, by decide +kernel⟩

/-- **C67 violated**: a client can be given a subscriber that does not exist: when the request's session is
logged out meanwhile, the server drops the subscriber and answers with its id
(connected_client.rs:144-147). The subscriber is never told, and no request for it can succeed. -/
theorem C67_violated_orphan : ∃ w, Exec World.initial
    [.connected 0 0, .created 1 psDb .nobody, .registered 0 1 0] w ∧
    (0, 1, 0) ∈ w.handles ∧ 0 ∉ w.closed ∧ w.up = [0] ∧ ∀ o, ¬ w.table.held o 1 := by
  refine ⟨_, .snoc (.snoc (.snoc (.nil _) (Step.connect _ 0 .webSocket (by simp [World.initial])))
    (Step.createOrphan _ 0 psDb psDb_ok (by simp [World.initial])))
    (Step.register _ 0 1 0 .webSocket (by simp [World.initial]) (by simp [World.initial])), by decide +kernel,
    by decide +kernel, by decide +kernel, ?_⟩
  rintro o ⟨ho, s, hs, rfl⟩
  apply ho
  simp only [World.initial, Table.create, List.nil_append, Table.sub] at hs
  simp at hs
  rw [← hs]

end Bonsai.Pubsub
