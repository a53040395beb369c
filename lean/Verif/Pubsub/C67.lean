import Verif.Pubsub.Core

/-!
# C67: subscribers receive exactly the messages of their topics, in order

Local subscribers.
-/
set_option linter.unusedSimpArgs false
set_option linter.unusedVariables false

namespace Bonsai.Pubsub
open Bonsai Bonsai.Names

theorem exec_split {w₀ w : World} {tr₁ tr₂ : List Label} {l : Label}
    (h : Exec w₀ (tr₁ ++ l :: tr₂) w) :
    ∃ w₁ w₂, Exec w₀ tr₁ w₁ ∧ Step w₁ l w₂ ∧ Exec w₂ tr₂ w := by
  generalize htr : tr₁ ++ l :: tr₂ = tr at h
  induction h generalizing tr₂ with
  | nil => simp at htr
  | @snoc tr w' l' w'' h k ih =>
    rcases List.eq_nil_or_concat tr₂ with rfl | ⟨xs, x, rfl⟩
    · rw [show tr₁ ++ [l] = tr₁.concat l by simp, show tr ++ [l'] = tr.concat l' by simp] at htr
      obtain ⟨rfl, rfl⟩ := List.of_concat_eq_concat htr
      exact ⟨_, _, h, k, .nil _⟩
    · rw [show tr₁ ++ l :: (xs.concat x) = (tr₁ ++ l :: xs).concat x by simp,
        show tr ++ [l'] = tr.concat l' by simp] at htr
      obtain ⟨h1, rfl⟩ := List.of_concat_eq_concat htr
      obtain ⟨w₁, w₂, a, b, c⟩ := ih h1
      refine ⟨w₁, w₂, a, b, ?_⟩
      rw [List.concat_eq_append]
      exact .snoc c k

/-- The messages in the receiver of a subscriber that it has not received yet. -/
def World.pending (w : World) (i : Nat) : List Msg :=
  match w.table.sub i with
  | some s => s.queue.map removePrefix
  | none => []

theorem sub_le {t : Table} (h : t.Ids) {i : Nat} {s : Sub} (hs : t.sub i = some s) : i ≤ t.lastId := by
  unfold Table.sub at hs
  rw [Option.map_eq_some_iff] at hs
  obtain ⟨p, hp, -⟩ := hs
  have h1 := List.mem_of_find?_eq_some hp
  have h2 := List.find?_some hp
  simp only [decide_eq_true_eq] at h2
  rw [← h2]
  exact h p h1

/-- Ids that were not given out have received nothing. -/
def Fresh (w : World) : Prop := w.table.Ids ∧ ∀ j, w.table.lastId < j → w.taken j = []

theorem Fresh.step {w w' : World} {l : Label} (h : Fresh w) (k : Step w l w') : Fresh w' := by
  obtain ⟨hi, ht⟩ := h
  cases k with
  | call l t hs =>
    exact ⟨(hs.ids hi).1, fun j hj => ht j (Nat.lt_of_le_of_lt (hs.ids hi).2 hj)⟩
  | create c sid db hdb hc =>
    exact ⟨ids_create hi _ _ _, fun j hj => ht j (Nat.lt_of_succ_lt hj)⟩
  | createOrphan c db hdb hc =>
    exact ⟨ids_create hi _ _ _, fun j hj => ht j (Nat.lt_of_succ_lt hj)⟩
  | receive i s m q hs ho hq =>
    refine ⟨ids_alter hi _ _, fun j hj => ?_⟩
    have := sub_le hi hs
    have hj' : w.table.lastId < j := hj
    simp only
    rw [setAt_ne _ _ (by omega)]
    exact ht j hj
  | forward i s c m q hs hc hq hup => exact ⟨ids_alter hi _ _, ht⟩
  | forwardFails i s c m q hs hc hq hup => exact ⟨ids_alter hi _ _, ht⟩
  | forwardLost i s c m q hs hc hq hup => exact ⟨ids_alter hi _ _, ht⟩
  | connect => exact ⟨hi, ht⟩
  | lose => exact ⟨hi, ht⟩
  | register => exact ⟨hi, ht⟩
  | deliver => exact ⟨hi, ht⟩
  | forget => exact ⟨hi, ht⟩
  | restart => exact ⟨fun p hp => (by cases hp), fun j hj => rfl⟩

theorem fresh_initial : Fresh World.initial := ⟨fun p hp => (by cases hp), fun _ _ => rfl⟩

theorem Fresh.exec {w w' : World} {tr : List Label} (h : Fresh w) (he : Exec w tr w') : Fresh w' := by
  induction he with
  | nil => exact h
  | snoc _ k ih => exact ih.step k

theorem topicStep_skip {i : Nat} {owner : Owner} {T : Option (List Bytes)} {l : Label}
    (h1 : ∀ t, l ≠ .subscribed i t) (h2 : ∀ t, l ≠ .unsubscribed i t) (h3 : l ≠ .ended i)
    (h4 : ∀ c sid, l ≠ .loggedOut c sid) : topicStep i owner T l = T := by
  cases T with
  | none => exact topicStep_none ..
  | some T =>
    cases l with
    | subscribed j t =>
      have : j ≠ i := fun e => h1 t (by rw [e])
      simp [topicStep, this]
    | unsubscribed j t =>
      have : j ≠ i := fun e => h2 t (by rw [e])
      simp [topicStep, this]
    | ended j =>
      have : j ≠ i := fun e => h3 (by rw [e])
      simp [topicStep, this]
    | loggedOut c sid => exact absurd rfl (h4 c sid)
    | _ => rfl

theorem emit_skip {db : String} {T : Option (List Bytes)} {l : Label}
    (h : ∀ d ts p, l ≠ .published d ts p) : emit db T l = [] := by
  cases T with
  | none => exact emit_none ..
  | some T => cases l <;> first | rfl | exact absurd rfl (h _ _ _)

/-- A pop of another subscriber's channel, or of this one's. -/
theorem core_pop {i : Nat} {db : String} {owner : Owner} {conn : Option Nat} {T : Option (List Bytes)}
    {s : Sub} (h : Core i db owner conn T s) (q : List Msg) :
    Core i db owner conn T { s with queue := q } := h

/-- Progress of one local subscriber. -/
theorem local_step {i : Nat} {db : String} {owner : Owner} {T : Option (List Bytes)} {W : List Msg}
    {w w' : World} {l : Label} (hf : Fresh w) (hdb : NullFree db) (hl : l ≠ .restarted)
    (h : ∃ s, w.table.sub i = some s ∧ Core i db owner none T s ∧ w.taken i ++ s.queue.map removePrefix = W)
    (k : Step w l w') :
    ∃ s, w'.table.sub i = some s ∧ Core i db owner none (topicStep i owner T l) s ∧
      w'.taken i ++ s.queue.map removePrefix = W ++ emit db T l := by
  obtain ⟨s, hs, hc, hq⟩ := h
  have hle := sub_le hf.1 hs
  have still : ∀ (w' : World) (l : Label), (∀ t, l ≠ .subscribed i t) → (∀ t, l ≠ .unsubscribed i t) →
      l ≠ .ended i → (∀ c sid, l ≠ .loggedOut c sid) → (∀ d ts p, l ≠ .published d ts p) →
      w'.table.sub i = some s → w'.taken i = w.taken i →
      ∃ s, w'.table.sub i = some s ∧ Core i db owner none (topicStep i owner T l) s ∧
        w'.taken i ++ s.queue.map removePrefix = W ++ emit db T l := by
    intro w' l a1 a2 a3 a4 a5 e1 e2
    refine ⟨s, e1, ?_, ?_⟩
    · rw [topicStep_skip a1 a2 a3 a4]; exact hc
    · rw [emit_skip a5, List.append_nil, e2]; exact hq
  cases k with
  | call l t ht =>
    obtain ⟨s', h1, h2, h3⟩ := ht.flow hf.1 hdb hs hle hc
    refine ⟨s', h1, h2, ?_⟩
    rw [h3, ← List.append_assoc]
    show w.taken i ++ _ ++ _ = _
    rw [hq]
  | create c sid db' hdb' hc' =>
    refine still _ _ (by simp) (by simp) (by simp) (by simp) (by simp) ?_ rfl
    show (w.table.create _ _ _).sub i = some s
    rw [sub_create hf.1, if_neg (by omega), hs]
  | createOrphan c db' hdb' hc' =>
    refine still _ _ (by simp) (by simp) (by simp) (by simp) (by simp) ?_ rfl
    show (w.table.create _ _ _).sub i = some s
    rw [sub_create hf.1, if_neg (by omega), hs]
  | receive j s2 m q hs2 ho hq2 =>
    by_cases hj : i = j
    · subst hj
      rw [hs] at hs2
      cases hs2
      refine ⟨{ s with queue := q }, ?_, ?_, ?_⟩
      · show (w.table.alter i _).sub i = _
        rw [sub_alter_self, hs]; rfl
      · rw [topicStep_skip (by simp) (by simp) (by simp) (by simp)]
        exact hc
      · rw [emit_skip (by simp), List.append_nil]
        simp only [setAt_self]
        rw [hq2] at hq
        rw [← hq]
        simp
    · refine still _ _ (by simp) (by simp) (by simp) (by simp) (by simp) ?_ ?_
      · show (w.table.alter j _).sub i = _
        rw [sub_alter_ne _ _ hj, hs]
      · simp only [setAt_ne _ _ hj]
  | forward j s2 c m q hs2 hc2 hq2 hup =>
    have hj : i ≠ j := by
      intro e
      subst e
      rw [hs] at hs2
      cases hs2
      rw [hc.2.1] at hc2
      cases hc2
    refine still _ _ (by simp) (by simp) (by simp) (by simp) (by simp) ?_ rfl
    show (w.table.alter j _).sub i = _
    rw [sub_alter_ne _ _ hj, hs]
  | forwardFails j s2 c m q hs2 hc2 hq2 hup =>
    have hj : i ≠ j := by
      intro e
      subst e
      rw [hs] at hs2
      cases hs2
      rw [hc.2.1] at hc2
      cases hc2
    refine still _ _ (by simp) (by simp) (by simpa using hj.symm) (by simp) (by simp) ?_ rfl
    show (w.table.alter j _).sub i = _
    rw [sub_alter_ne _ _ hj, hs]
  | forwardLost j s2 c m q hs2 hc2 hq2 hup =>
    have hj : i ≠ j := by
      intro e
      subst e
      rw [hs] at hs2
      cases hs2
      rw [hc.2.1] at hc2
      cases hc2
    refine still _ _ (by simp) (by simp) (by simp) (by simp) (by simp) ?_ rfl
    show (w.table.alter j _).sub i = _
    rw [sub_alter_ne _ _ hj, hs]
  | restart => exact absurd rfl hl
  | connect => exact still _ _ (by simp) (by simp) (by simp) (by simp) (by simp) hs rfl
  | lose => exact still _ _ (by simp) (by simp) (by simp) (by simp) (by simp) hs rfl
  | register => exact still _ _ (by simp) (by simp) (by simp) (by simp) (by simp) hs rfl
  | deliver => exact still _ _ (by simp) (by simp) (by simp) (by simp) (by simp) hs rfl
  | forget => exact still _ _ (by simp) (by simp) (by simp) (by simp) (by simp) hs rfl

/-- **C67**, local subscribers: in every history, whatever other subscribers, clients and connections do,
what a subscriber has received, followed by what waits in its receiver, is exactly one message for each
publication in its database to a topic it was subscribed to at the time, in the order of the
publications. -/
theorem C67_local (tr₁ tr₂ : List Label) (w : World) (i : Nat) (db : String)
    (he : Exec World.initial (tr₁ ++ .created i db .handle :: tr₂) w) (hn : NoRestart tr₂) :
    w.taken i ++ w.pending i = wanted i db .handle [] tr₂ := by
  obtain ⟨w₁, w₂, e₁, k, e₂⟩ := exec_split he
  have hf := fresh_initial.exec e₁
  have hf2 := hf.step k
  generalize hlab : Label.created i db .handle = l at k
  have key : NullFree db ∧ ∃ s, w₂.table.sub i = some s ∧ Core i db .handle none (some []) s ∧
      w₂.taken i ++ s.queue.map removePrefix = [] := by
    cases k with
    | call l t ht =>
      cases ht with
      | create db' hdb =>
        cases hlab
        refine ⟨hdb, _, (by rw [sub_create hf.1, if_pos rfl]), ⟨rfl, rfl, rfl, by simp⟩, ?_⟩
        simp only [List.map_nil, List.append_nil]
        exact hf.2 _ (Nat.lt_succ_self _)
      | _ => cases hlab
    | _ => cases hlab
  obtain ⟨hdb, key⟩ := key
  have main : ∀ tr w', Exec w₂ tr w' → NoRestart tr →
      ∃ s, w'.table.sub i = some s ∧ Core i db .handle none (tr.foldl (topicStep i .handle) (some [])) s ∧
        w'.taken i ++ s.queue.map removePrefix = wanted i db .handle [] tr := by
    intro tr w' ex
    induction ex with
    | nil => intro _; exact key
    | @snoc tr wa l wb ex k ih =>
      intro hn
      have hn' : NoRestart tr := fun hm => hn (List.mem_append_left _ hm)
      have hl : l ≠ .restarted := fun e => hn (List.mem_append_right _ (by simp [e]))
      have := local_step (hf2.exec ex) hdb hl (ih hn') k
      rw [List.foldl_append, wanted_snoc]
      exact this
  obtain ⟨s, h1, -, h3⟩ := main tr₂ w e₂ hn
  unfold World.pending
  rw [h1]
  exact h3

end Bonsai.Pubsub
