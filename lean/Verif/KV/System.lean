import Verif.KV.Lemmas

/-!
# Executions of the key-value store

Every step below is executed by the code while it holds the state lock, except `write`, which is the
atomic commit of one storage transaction by the persisting thread; the thread shares nothing else with
the others before it takes the lock (`finish`).
-/
set_option linter.unusedSimpArgs false
set_option linter.unusedSectionVars false

namespace Bonsai.KV
open Bonsai

variable {F : Type} [FloatOps F]

/-- What can happen. -/
inductive Event (F : Type) where
  /-- `perform_kv_operation`. -/
  | op (ck : Clock) (op : KeyOp F)
  /-- One pass of the background worker. -/
  | tick (ck : Clock)
  /-- The persisting thread commits its batch. -/
  | write
  /-- The persisting thread fails and returns early (keyvalue.rs:690-745, every `?`). -/
  | fail
  /-- The persisting thread finishes. -/
  | finish (now : Nat)
  /-- `ContextData::drop` (database.rs:1734-1745) calls `shutdown`. -/
  | shutdown (now : Nat)

/-- One step: the event, the answer given to the caller (if any) and the next state. -/
inductive Step : St F → Event F → Option (Except Err (Output F)) → St F → Prop where
  | op (st : St F) (ck : Clock) (o : KeyOp F) :
      Step st (.op ck o) (some (st.perform ck o).1) (st.perform ck o).2
  | tick (st : St F) (ck : Clock) : Step st (.tick ck) none (st.tick ck)
  | write (st : St F) (b : OMap (Option (Entry F))) (hw : st.writer = .writing)
      (hb : st.persisting = some b) : Step st .write none (st.write b)
  | fail (st : St F) (hw : st.writer = .writing) : Step st .fail none { st with writer := .dead }
  | finish (st : St F) (now : Nat) (hw : st.writer = .written) : Step st (.finish now) none (st.finish now)
  | shutdown (st : St F) (now : Nat) : Step st (.shutdown now) none (st.beginShutdown now).1

/-- An execution: the events and the answers to the operations, in order. -/
inductive Run : St F → List (Event F) → List (Except Err (Output F)) → St F → Prop where
  | nil (st : St F) : Run st [] [] st
  | cons {st st' st'' : St F} {e : Event F} {a : Option (Except Err (Output F))} {es : List (Event F)}
      {as : List (Except Err (Output F))} (h : Step st e a st') (r : Run st' es as st'') :
      Run st (e :: es) (a.toList ++ as) st''

structure Inv (st : St F) : Prop where
  exp : ExpInv st
  persist : PersistInv st

theorem inv_new (p : Persistence) (now : Nat) (log : List (List (Bytes × Bool))) :
    Inv (St.new p now (.empty : OMap (Entry F)) log) := by
  refine ⟨⟨?_, ?_, ?_, ?_⟩, ⟨?_, ?_⟩⟩
  · intro k; rfl
  · exact List.nodup_nil
  · intro k; simp [St.new]
  · exact List.Pairwise.nil
  · simp [St.new]
  · intro h; simp [St.new] at h

/-! ## Staging, target -/

/-- Nothing a user can see changed, and the expiration queue is the same. -/
structure Quiet (st st' : St F) : Prop where
  get : ∀ k, st'.get k = st.get k
  expiring : st'.expiring = st.expiring
  order : st'.order = st.order

theorem Quiet.refl (st : St F) : Quiet st st := ⟨fun _ => rfl, rfl, rfl⟩

theorem Quiet.trans {a b c : St F} (h : Quiet a b) (g : Quiet b c) : Quiet a c :=
  ⟨fun k => (g.get k).trans (h.get k), g.expiring.trans h.expiring, g.order.trans h.order⟩

theorem Quiet.inv {a b : St F} (h : Quiet a b) (i : ExpInv a) : ExpInv b := by
  refine ⟨?_, ?_, ?_, ?_⟩
  · intro k; rw [h.expiring, h.get]; exact i.tracked k
  · rw [h.order]; exact i.nodup
  · rw [h.order, h.expiring]; exact i.queued
  · rw [h.order, h.expiring]; exact i.sorted

theorem Quiet.look {a b : St F} (h : Quiet a b) : b.look = a.look := by
  funext k; simp only [St.look, h.get]

theorem updateTarget_quiet (st : St F) (now : Nat) : Quiet st (st.updateTarget now) :=
  ⟨fun _ => rfl, rfl, rfl⟩

theorem stage_some {st st' : St F} (h : st.stage = some st') :
    st.persisting = none ∧ st.dirty.list ≠ [] ∧
      st' = { st with dirty := .empty, persisting := some st.dirty } := by
  simp only [St.stage] at h
  split at h
  · rename_i hc
    simp only [Option.some.injEq] at h
    exact ⟨Option.isNone_iff_eq_none.mp hc.2, hc.1, h.symm⟩
  · cases h

theorem stage_quiet {st st' : St F} (h : st.stage = some st') : Quiet st st' := by
  obtain ⟨h1, _, rfl⟩ := stage_some h
  refine ⟨?_, rfl, rfl⟩
  intro k
  simp only [St.get, OMap.get_empty, h1, Option.bind_some, Option.bind_none]

theorem commit_quiet (st : St F) (now : Nat) : Quiet st (st.commit now).1 := by
  simp only [St.commit]
  cases h : st.stage with
  | none => exact .refl _
  | some st' => exact (stage_quiet h).trans ⟨fun _ => rfl, rfl, rfl⟩

theorem commit_persist {st : St F} (now : Nat) (h : PersistInv st) : PersistInv (st.commit now).1 := by
  simp only [St.commit]
  cases hs : st.stage with
  | none => exact h
  | some st' =>
    obtain ⟨_, _, rfl⟩ := stage_some hs
    refine ⟨?_, ?_⟩
    · simp
    · intro hw; simp at hw

theorem settle_quiet (st : St F) (ck : Clock) : Quiet st (st.settle ck) := by
  simp only [St.settle]
  split
  · exact (commit_quiet st _).trans (updateTarget_quiet _ _)
  · exact updateTarget_quiet _ _

theorem settle_persist {st : St F} (ck : Clock) (h : PersistInv st) : PersistInv (st.settle ck) := by
  simp only [St.settle]
  split
  · exact ⟨(commit_persist _ h).idle, (commit_persist _ h).written⟩
  · exact ⟨h.idle, h.written⟩

/-! ## The persisting thread -/

theorem persistKey_get (disk : OMap (Entry F)) (k : Bytes) (v : Option (Entry F)) (x : Bytes) :
    (persistKey disk k v).1.get x = if k = x then v else disk.get x := by
  cases v with
  | some e => simp [persistKey, OMap.get_set]
  | none =>
    simp only [persistKey]
    split
    · rw [OMap.get_remove]
    · rename_i hn
      by_cases hk : k = x
      · subst hk; simpa using hn
      · simp [hk]

theorem persistBatch_get (l : List (Bytes × Option (Entry F))) (hs : SortedL l) (disk : OMap (Entry F))
    (x : Bytes) :
    (persistBatch l disk).1.get x = (match lookupL l x with | some v => v | none => disk.get x) := by
  induction l generalizing disk with
  | nil => rfl
  | cons p l ih =>
    obtain ⟨k, v⟩ := p
    obtain ⟨h1, h2⟩ := List.pairwise_cons.mp hs
    simp only [persistBatch, lookupL]
    rw [ih h2, persistKey_get]
    by_cases hk : k = x
    · subst hk
      rw [lookupL_none_of_lt h1]
      simp
    · simp [hk]

/-- When nothing is logged nothing changed. -/
theorem persistBatch_nil (l : List (Bytes × Option (Entry F))) (disk : OMap (Entry F))
    (h : (persistBatch l disk).2 = []) : (persistBatch l disk).1 = disk := by
  induction l generalizing disk with
  | nil => rfl
  | cons p l ih =>
    obtain ⟨k, v⟩ := p
    simp only [persistBatch, List.append_eq_nil_iff] at h ⊢
    rw [ih _ h.2]
    cases v with
    | some e => simp [persistKey] at h
    | none =>
      simp only [persistKey] at h ⊢
      split at h
      · simp at h
      · rename_i hn; simp [hn]

theorem write_disk (st : St F) (b : OMap (Option (Entry F))) (k : Bytes) :
    (st.write b).disk.get k = match b.get k with | some v => v | none => st.disk.get k := by
  have hg := persistBatch_get b.list b.sorted st.disk k
  simp only [St.write]
  split
  · rename_i he
    have := persistBatch_nil b.list st.disk he
    rw [this] at hg
    exact hg
  · exact hg

theorem write_rest (st : St F) (b : OMap (Option (Entry F))) :
    (st.write b).dirty = st.dirty ∧ (st.write b).persisting = st.persisting ∧
    (st.write b).expiring = st.expiring ∧ (st.write b).order = st.order ∧
    (st.write b).shutdown = st.shutdown ∧ (st.write b).writer = .written := by
  simp only [St.write]
  split <;> exact ⟨rfl, rfl, rfl, rfl, rfl, rfl⟩

theorem write_quiet {st : St F} {b : OMap (Option (Entry F))} (hb : st.persisting = some b) :
    Quiet st (st.write b) := by
  obtain ⟨h1, h2, h3, h4, _, _⟩ := write_rest st b
  refine ⟨?_, h3, h4⟩
  intro k
  simp only [St.get, h1, h2, hb, write_disk, Option.bind_some]
  cases st.dirty.get k with
  | some e => rfl
  | none =>
    simp only
    cases b.get k with
    | some e => rfl
    | none => rfl

theorem write_persist {st : St F} {b : OMap (Option (Entry F))} (hb : st.persisting = some b) :
    PersistInv (st.write b) := by
  obtain ⟨_, h2, _, _, _, h6⟩ := write_rest st b
  refine ⟨?_, ?_⟩
  · rw [h6, h2, hb]; simp
  · intro _ b' hb' k e hk
    rw [h2, hb] at hb'
    cases hb'
    rw [write_disk, hk]

/-- Forgetting a batch that is on disk changes nothing. -/
theorem forget_quiet {st : St F} (h : PersistInv st) (hw : st.writer = .written) :
    Quiet st { st with persisting := none, writer := .idle } := by
  refine ⟨?_, rfl, rfl⟩
  intro k
  simp only [St.get]
  cases st.dirty.get k with
  | some e => rfl
  | none =>
    simp only [Option.bind_none]
    cases hp : st.persisting with
    | none => rfl
    | some b =>
      simp only [Option.bind_some]
      cases hb : b.get k with
      | none => rfl
      | some e => exact h.written hw b hp k e hb

theorem finish_quiet {st : St F} (h : PersistInv st) (hw : st.writer = .written) (now : Nat) :
    Quiet st (st.finish now) := by
  have q1 : Quiet st ({ st with persisting := none, writer := .idle }.updateTarget now) :=
    (forget_quiet h hw).trans (updateTarget_quiet _ _)
  simp only [St.finish]
  split
  · split
    · rename_i st' hs
      exact (q1.trans (stage_quiet hs)).trans ⟨fun _ => rfl, rfl, rfl⟩
    · exact q1.trans ⟨fun _ => rfl, rfl, rfl⟩
  · exact q1

theorem finish_persist {st : St F} (now : Nat) : PersistInv (st.finish now) := by
  have hidle : PersistInv ({ st with persisting := none, writer := .idle }.updateTarget now) :=
    ⟨by simp [St.updateTarget], by intro hw; simp [St.updateTarget] at hw⟩
  simp only [St.finish]
  split
  · split
    · rename_i st' hs
      obtain ⟨_, _, rfl⟩ := stage_some hs
      exact ⟨by simp, by intro hw; simp at hw⟩
    · exact ⟨hidle.idle, hidle.written⟩
  · exact hidle

theorem beginShutdown_quiet (st : St F) (now : Nat) : Quiet st (st.beginShutdown now).1 := by
  simp only [St.beginShutdown]
  split
  · exact .refl _
  · split
    · exact (commit_quiet st now).trans ⟨fun _ => rfl, rfl, rfl⟩
    · exact commit_quiet st now

theorem beginShutdown_persist {st : St F} (now : Nat) (h : PersistInv st) :
    PersistInv (st.beginShutdown now).1 := by
  simp only [St.beginShutdown]
  split
  · exact h
  · have := commit_persist now h
    split
    · exact ⟨this.idle, this.written⟩
    · exact this

/-! ## Operations and the invariant -/

theorem perform_ok {st : St F} (h : Inv st) (ck : Clock) (op : KeyOp F) :
    (st.perform ck op).1 = (Spec.perform st.look ck.now op).1 ∧
    (st.perform ck op).2.look = (Spec.perform st.look ck.now op).2 ∧ Inv (st.perform ck op).2 := by
  have hx := exec_ok (removeExpired_inv h.exp ck.now) ck.now op
  have hp : PersistInv ((st.removeExpired ck.now).exec ck.now op).2 :=
    hx.back.persist ((SameBack.removeExpired st ck.now).persist h.persist)
  rw [removeExpired_look h.exp] at hx
  simp only [St.perform, Spec.perform]
  cases hr : (st.removeExpired ck.now).exec ck.now op with
  | mk a st' =>
    rw [hr] at hx hp
    cases a with
    | error e => exact ⟨hx.answer, hx.look, ⟨hx.inv, hp⟩⟩
    | ok o =>
      have q := settle_quiet st' ck
      exact ⟨hx.answer, q.look.trans hx.look, ⟨q.inv hx.inv, settle_persist ck hp⟩⟩

theorem tick_ok {st : St F} (h : Inv st) (ck : Clock) :
    (st.tick ck).look = Spec.expire ck.now st.look ∧ Inv (st.tick ck) := by
  have hi := removeExpired_inv h.exp ck.now
  have hp := (SameBack.removeExpired st ck.now).persist h.persist
  have q := settle_quiet (st.removeExpired ck.now) ck
  exact ⟨q.look.trans (removeExpired_look h.exp ck.now), ⟨q.inv hi, settle_persist ck hp⟩⟩

theorem step_inv {st st' : St F} {e : Event F} {a : Option (Except Err (Output F))} (h : Inv st)
    (s : Step st e a st') : Inv st' := by
  cases s with
  | op ck o => exact (perform_ok h ck o).2.2
  | tick ck => exact (tick_ok h ck).2
  | write b hw hb => exact ⟨(write_quiet hb).inv h.exp, write_persist hb⟩
  | fail hw =>
    refine ⟨⟨h.exp.tracked, h.exp.nodup, h.exp.queued, h.exp.sorted⟩, ?_, ?_⟩
    · have := h.persist.idle
      rw [hw] at this
      simp at this
      simp [this]
    · intro hd; cases hd
  | finish now hw => exact ⟨(finish_quiet h.persist hw now).inv h.exp, finish_persist now⟩
  | shutdown now => exact ⟨(beginShutdown_quiet st now).inv h.exp, beginShutdown_persist now h.persist⟩

theorem run_inv {st st' : St F} {es : List (Event F)} {as : List (Except Err (Output F))} (h : Inv st)
    (r : Run st es as st') : Inv st' := by
  induction r with
  | nil => exact h
  | cons s _ ih => exact ih (step_inv h s)

/-- What an event means to the specification. -/
def Event.effect (m : KvMap F) : Event F → KvMap F
  | .op ck o => (Spec.perform m ck.now o).2
  | .tick ck => Spec.expire ck.now m
  | _ => m

/-- What a step does to the contents. -/
theorem step_look {st st' : St F} {e : Event F} {a : Option (Except Err (Output F))} (h : Inv st)
    (s : Step st e a st') :
    st'.look = e.effect st.look := by
  cases s with
  | op ck o => exact (perform_ok h ck o).2.1
  | tick ck => exact (tick_ok h ck).1
  | write b hw hb => exact (write_quiet hb).look
  | fail hw => rfl
  | finish now hw => exact (finish_quiet h.persist hw now).look
  | shutdown now => exact (beginShutdown_quiet st now).look

end Bonsai.KV
