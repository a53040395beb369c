import Verif.KV.C40

/-!
# C43: lazy persistence thresholds are honoured
-/
set_option linter.unusedSimpArgs false
set_option linter.unusedSectionVars false

namespace Bonsai.KV
open Bonsai

variable {F : Type} [FloatOps F]

/-! ## Specification -/

/-- Some threshold has both its change count met and its duration elapsed. -/
def ThresholdMet (rules : List Threshold) (changes elapsed : Nat) : Prop :=
  0 < changes ∧ ∃ r ∈ rules, r.changes ≤ changes ∧ r.duration ≤ elapsed

/-- The worker is woken no later than `t`. -/
def WokenBy : Target → Nat → Prop
  | .now, _ => True
  | .at w, t => w ≤ t
  | .never, _ => False

/-! ## The rules -/

theorem mem_insertRule {r x : Threshold} {l : List Threshold} : x ∈ insertRule r l ↔ x = r ∨ x ∈ l := by
  induction l with
  | nil => simp [insertRule]
  | cons y l ih =>
    simp only [insertRule]
    split
    · simp
    · simp only [List.mem_cons, ih]
      constructor
      · rintro (h | h | h) <;> simp [h]
      · rintro (h | h | h) <;> simp [h]

theorem mem_sortRules {x : Threshold} {l : List Threshold} : x ∈ sortRules l ↔ x ∈ l := by
  induction l with
  | nil => simp [sortRules]
  | cons y l ih => simp [sortRules, mem_insertRule, ih]

def RulesSorted (l : List Threshold) : Prop := l.Pairwise fun a b => a.changes ≤ b.changes

theorem insertRule_sorted {r : Threshold} {l : List Threshold} (h : RulesSorted l) :
    RulesSorted (insertRule r l) := by
  induction l with
  | nil => simp [insertRule, RulesSorted]
  | cons y l ih =>
    obtain ⟨h1, h2⟩ := List.pairwise_cons.mp h
    simp only [insertRule]
    split
    · rename_i hle
      refine List.pairwise_cons.mpr ⟨?_, h⟩
      intro b hb
      simp only [List.mem_cons] at hb
      rcases hb with rfl | hb
      · exact hle
      · exact Nat.le_trans hle (h1 b hb)
    · rename_i hle
      refine List.pairwise_cons.mpr ⟨?_, ih h2⟩
      intro b hb
      rcases mem_insertRule.mp hb with rfl | hb
      · omega
      · exact h1 b hb

theorem sortRules_sorted (l : List Threshold) : RulesSorted (sortRules l) := by
  induction l with
  | nil => exact List.Pairwise.nil
  | cons r l ih => exact insertRule_sorted ih

theorem shortest_spec {changes elapsed : Nat} {l : List Threshold} (hs : RulesSorted l) (acc : Nat) :
    shortest changes elapsed acc l ≤ acc ∧
    (∀ r ∈ l, r.changes ≤ changes → shortest changes elapsed acc l ≤ r.duration - elapsed) ∧
    (shortest changes elapsed acc l = acc ∨
      ∃ r ∈ l, r.changes ≤ changes ∧ shortest changes elapsed acc l = r.duration - elapsed) := by
  induction l generalizing acc with
  | nil => exact ⟨Nat.le_refl _, by simp, .inl rfl⟩
  | cons x l ih =>
    obtain ⟨h1, h2⟩ := List.pairwise_cons.mp hs
    simp only [shortest]
    split
    · rename_i hx
      split
      · rename_i h0
        refine ⟨by omega, ?_, ?_⟩
        · intro r _ _; omega
        · rcases Nat.le_total acc (x.duration - elapsed) with h | h
          · left; omega
          · right; exact ⟨x, by simp, hx, by omega⟩
      · obtain ⟨i1, i2, i3⟩ := ih h2 (min acc (x.duration - elapsed))
        refine ⟨by omega, ?_, ?_⟩
        · intro r hr hc
          simp only [List.mem_cons] at hr
          rcases hr with rfl | hr
          · exact Nat.le_trans i1 (Nat.min_le_right _ _)
          · exact i2 r hr hc
        · rcases i3 with h | ⟨r, hr, hc, h⟩
          · rcases Nat.le_total acc (x.duration - elapsed) with h' | h'
            · left; omega
            · right; exact ⟨x, by simp, hx, by omega⟩
          · right; exact ⟨r, by simp [hr], hc, h⟩
    · rename_i hx
      refine ⟨Nat.le_refl _, ?_, .inl rfl⟩
      intro r hr hc
      simp only [List.mem_cons] at hr
      rcases hr with rfl | hr
      · exact absurd hc hx
      · have := h1 r hr; omega

theorem durationMax_pos : 0 < durationMax := by unfold durationMax; omega

theorem zero_lt_durationMax : (0 : Nat) < durationMax := durationMax_pos

/-- **C43.** With lazy persistence, a commit is due exactly when some threshold has both its change
count met and its duration elapsed; the order in which the rules are given does not matter. -/
theorem C43_commit_iff_threshold_met (rules : List Threshold) (changes elapsed : Nat) :
    (Persistence.mkLazy rules).shouldCommit changes elapsed = true ↔ ThresholdMet rules changes elapsed := by
  obtain ⟨h1, h2, h3⟩ := shortest_spec (changes := changes) (elapsed := elapsed) (sortRules_sorted rules) durationMax
  simp only [Persistence.shouldCommit, Persistence.untilNext, Persistence.mkLazy, ThresholdMet, beq_iff_eq]
  by_cases hc : changes = 0
  · simp [hc]
  · simp only [hc, if_false]
    have hpos : 0 < changes := by omega
    simp only [hpos, true_and]
    constructor
    · intro h
      split at h
      · simp only [Option.some.injEq] at h
        rcases h3 with h' | ⟨r, hr, hrc, h'⟩
        · have := durationMax_pos; omega
        · exact ⟨r, mem_sortRules.mp hr, hrc, by omega⟩
      · cases h
    · rintro ⟨r, hr, hrc, hd⟩
      have := h2 r (mem_sortRules.mpr hr) hrc
      have h0 : shortest changes elapsed durationMax (sortRules rules) = 0 := by omega
      rw [h0]
      simp [durationMax_pos]

/-- **C43.** With immediate persistence a commit is due as soon as anything changed. -/
theorem C43_immediate (changes elapsed : Nat) :
    Persistence.immediate.shouldCommit changes elapsed = true ↔ 0 < changes := by
  simp only [Persistence.shouldCommit, Persistence.untilNext]
  by_cases hc : changes = 0
  · simp [hc]
  · simp [hc]; omega

/-- **C43.** While nothing is due, the time until the next commit is the shortest remaining duration
among the thresholds whose count is met. -/
theorem C43_time_until_commit (rules : List Threshold) (changes elapsed : Nat) (d : Nat)
    (h : (Persistence.mkLazy rules).untilNext changes elapsed = some d) :
    (∀ r ∈ rules, r.changes ≤ changes → d ≤ r.duration - elapsed) ∧
    (∃ r ∈ rules, r.changes ≤ changes ∧ d = r.duration - elapsed) := by
  obtain ⟨h1, h2, h3⟩ := shortest_spec (changes := changes) (elapsed := elapsed) (sortRules_sorted rules) durationMax
  simp only [Persistence.untilNext, Persistence.mkLazy] at h
  by_cases hc : changes = 0
  · simp [hc] at h
  · simp only [hc, if_false] at h
    split at h
    · rename_i hlt
      simp only [Option.some.injEq] at h
      refine ⟨fun r hr hrc => by rw [← h]; exact h2 r (mem_sortRules.mpr hr) hrc, ?_⟩
      rcases h3 with h' | ⟨r, hr, hrc, h'⟩
      · omega
      · exact ⟨r, mem_sortRules.mp hr, hrc, by omega⟩
    · cases h

/-- A met count whose duration is not the maximum always gives a deadline. -/
theorem untilNext_some {rules : List Threshold} {changes elapsed : Nat} {r : Threshold}
    (hpos : 0 < changes) (hr : r ∈ rules) (hc : r.changes ≤ changes) (hd : r.duration < durationMax) :
    ∃ d, (Persistence.mkLazy rules).untilNext changes elapsed = some d ∧ d ≤ r.duration - elapsed := by
  obtain ⟨_, h2, _⟩ := shortest_spec (changes := changes) (elapsed := elapsed) (sortRules_sorted rules) durationMax
  have hle := h2 r (mem_sortRules.mpr hr) hc
  have hlt : shortest changes elapsed durationMax (sortRules rules) < durationMax := by omega
  refine ⟨_, ?_, hle⟩
  have hn : changes ≠ 0 := by omega
  simp only [Persistence.untilNext, Persistence.mkLazy, hn, if_false, hlt, if_true]

/-! ## Operations stage exactly when due -/

/-- **C43.** After an operation, or a pass of the background worker, a batch is staged exactly when
none is in flight and a commit is due for the number of changed keys: not later, not before. -/
theorem C43_staged_exactly_when_due (st : St F) (ck : Clock) :
    ((st.settle ck).persisting ≠ st.persisting ↔
      st.persisting = none ∧
        st.persistence.shouldCommit st.dirty.list.length (ck.now - st.lastCommit) = true) := by
  cases hp : st.persisting with
  | some b =>
    have : st.settle ck = st.updateTarget ck.target := settle_busy ck (by rw [hp]; rfl)
    rw [this]
    simp [St.updateTarget, hp]
  | none =>
    simp only [St.settle, St.needsCommit, hp, true_and]
    split
    · rename_i hc
      simp only [hc, iff_true]
      have hne : st.dirty.list ≠ [] := by
        intro he
        rw [he] at hc
        simp [Persistence.shouldCommit, Persistence.untilNext] at hc
      have hs : st.stage = some { st with dirty := .empty, persisting := some st.dirty } := by
        simp [St.stage, hne, hp]
      simp [St.commit, hs, St.updateTarget]
    · rename_i hc
      simp [St.updateTarget, hp, hc]

/-! ## The background worker's alarm -/

/-- Every clock reading of the event is at most `T`. -/
def ReadsBy (T : Nat) : Event F → Prop
  | .op ck _ => ck.now ≤ T ∧ ck.commit ≤ T ∧ ck.target ≤ T
  | .tick ck => ck.now ≤ T ∧ ck.commit ≤ T ∧ ck.target ≤ T
  | .finish now => now ≤ T
  | .shutdown now => now ≤ T
  | _ => True

/-- The worker's alarm: woken by each pending expiration and each pending commit (or at once if that
time has passed). -/
structure Alarm (rules : List Threshold) (T : Nat) (st : St F) : Prop where
  expirations : ∀ k t, st.expiring.get k = some t → WokenBy st.target (max t T)
  commits : st.persisting = none → 0 < st.dirty.list.length →
    ∀ r ∈ rules, r.changes ≤ st.dirty.list.length → r.duration < durationMax →
      WokenBy st.target (max (st.lastCommit + r.duration) T)

theorem WokenBy.mono {tg : Target} {a b : Nat} (h : WokenBy tg a) (hab : a ≤ b) : WokenBy tg b := by
  cases tg with
  | now => trivial
  | «at» w => exact Nat.le_trans h hab
  | never => exact h

theorem alarm_updateTarget {rules : List Threshold} {st : St F} {now T : Nat} (_hT : now ≤ T)
    (hp : st.persistence = .mkLazy rules) (hq : QueueInv st.expiring st.order) :
    Alarm rules T (st.updateTarget now) := by
  -- the first key of the queue expires first
  have hfirst : ∀ k t, st.expiring.get k = some t →
      ∃ t', (st.order.head?.bind fun k => st.expiring.get k) = some t' ∧ t' ≤ t := by
    intro k t hk
    have hm := (hq.queued k).mpr (by rw [hk]; rfl)
    cases ho : st.order with
    | nil => rw [ho] at hm; cases hm
    | cons x xs =>
      obtain ⟨tx, hx⟩ := Option.isSome_iff_exists.mp ((hq.queued x).mp (by rw [ho]; simp))
      refine ⟨tx, by simp [hx], ?_⟩
      rw [ho] at hm
      simp only [List.mem_cons] at hm
      rcases hm with rfl | hm
      · rw [hx] at hk; cases hk; exact Nat.le_refl _
      · have hs := hq.sorted
        rw [ho] at hs
        exact (List.pairwise_cons.mp hs).1 k hm tx t hx hk
  have hcommit : ∀ r ∈ rules, st.persisting = none → 0 < st.dirty.list.length →
      r.changes ≤ st.dirty.list.length → r.duration < durationMax →
      ∃ c, st.commitTarget now = some c ∧ c ≤ max (st.lastCommit + r.duration) now := by
    intro r hr hn hpos hc hd
    obtain ⟨d, hd1, hd2⟩ := untilNext_some (elapsed := now - st.lastCommit) hpos hr hc hd
    refine ⟨now + d, by simp only [St.commitTarget, hn, hp, hd1]; rfl, by omega⟩
  constructor
  · intro k t hk
    obtain ⟨t', ht', hle⟩ := hfirst k t hk
    simp only [St.updateTarget, ht']
    split
    · split
      · trivial
      · rename_i kk h1 h2
        cases h1
        show min _ _ ≤ _
        omega
    · rename_i heq; cases heq
    · rename_i heq
      cases heq
      split
      · trivial
      · show _ ≤ _; omega
    · rename_i heq; cases heq
  · intro hn hpos r hr hc hd
    have hn' : st.persisting = none := hn
    obtain ⟨c, hcc, hle⟩ := hcommit r hr hn' hpos hc hd
    show WokenBy (St.target _) (max (st.lastCommit + r.duration) T)
    simp only [St.updateTarget]
    rw [hcc]
    cases st.order.head?.bind fun k => st.expiring.get k with
    | some kt =>
      simp only
      split
      · trivial
      · show min _ _ ≤ _; omega
    | none =>
      simp only
      split
      · trivial
      · show _ ≤ _; omega

/-- The alarm does not look at the target's history, only at these fields. -/
theorem Alarm.congr {rules : List Threshold} {T : Nat} {a b : St F} (h : Alarm rules T a)
    (he : b.expiring = a.expiring) (ht : b.target = a.target)
    (hc : b.persisting = none → a.persisting = none ∧ b.dirty = a.dirty ∧ b.lastCommit = a.lastCommit) :
    Alarm rules T b := by
  refine ⟨?_, ?_⟩
  · intro k t hk
    rw [he] at hk
    rw [ht]
    exact h.expirations k t hk
  · intro hn hpos r hr hrc hd
    obtain ⟨h1, h2, h3⟩ := hc hn
    rw [h2] at hpos hrc
    rw [ht, h3]
    exact h.commits h1 hpos r hr hrc hd

theorem removeLoop_nothing {now : Nat} {order : List Bytes} {ex : OMap Nat} {d : OMap (Option (Entry F))}
    (hq : QueueInv ex order) (h : ∀ k t, ex.get k = some t → ¬ t ≤ now) :
    removeLoop now order ex d = (order, ex, d) := by
  cases order with
  | nil => rfl
  | cons x xs =>
    obtain ⟨t, hx⟩ := Option.isSome_iff_exists.mp ((hq.queued x).mp (by simp))
    simp only [removeLoop, hx]
    rw [if_neg (h x t hx)]

theorem settle_persistence (st : St F) (ck : Clock) : (st.settle ck).persistence = st.persistence := by
  simp only [St.settle]
  split
  · show (st.commit ck.commit).1.persistence = _
    simp only [St.commit]
    cases h : st.stage with
    | none => rfl
    | some st' => obtain ⟨_, _, rfl⟩ := stage_some h; rfl
  · rfl

theorem alarm_settle {rules : List Threshold} {st : St F} {ck : Clock} {T : Nat} (hT : ck.target ≤ T)
    (hp : st.persistence = .mkLazy rules) (hq : QueueInv st.expiring st.order) :
    Alarm rules T (st.settle ck) := by
  simp only [St.settle]
  split
  · refine alarm_updateTarget hT ?_ ?_
    · simp only [St.commit]
      cases h : st.stage with
      | none => exact hp
      | some st' => obtain ⟨_, _, rfl⟩ := stage_some h; exact hp
    · have := commit_quiet st ck.commit
      rw [this.expiring, this.order]; exact hq
  · exact alarm_updateTarget hT hp hq

/-- An operation that fails changes nothing but the expired keys. -/
theorem exec_error {st st' : St F} {now : Nat} {op : KeyOp F} {e : Err}
    (h : st.exec now op = (.error e, st')) : st' = st := by
  rcases op with ⟨k, c⟩
  cases c with
  | set c =>
    simp only [St.exec, St.execSet] at h
    cases hv : c.value.validate with
    | error e' => rw [hv] at h; simp only [Prod.mk.injEq] at h; exact h.2.symm
    | ok v =>
      rw [hv] at h
      generalize (if c.check.isSome = true ∨ c.returnPrevious = true ∨ c.keepExisting = true then
        some (st.get k) else none) = f at h
      simp only at h
      split at h
      · split at h
        · simp at h
        · split at h <;> simp at h
      · simp at h
  | get d =>
    cases d with
    | false => simp [St.exec] at h
    | true => simp [St.exec] at h
  | delete => simp [St.exec] at h
  | increment a s =>
    simp only [St.exec, St.execNumeric] at h
    split at h
    · split at h
      · simp only [Prod.mk.injEq] at h; exact h.2.symm
      · simp at h
    · simp only [Prod.mk.injEq] at h; exact h.2.symm
  | decrement a s =>
    simp only [St.exec, St.execNumeric] at h
    split at h
    · split at h
      · simp only [Prod.mk.injEq] at h; exact h.2.symm
      · simp at h
    · simp only [Prod.mk.injEq] at h; exact h.2.symm

theorem alarm_step {rules : List Threshold} {T : Nat} {st st' : St F} {e : Event F}
    {a : Option (Except Err (Output F))} (hi : Inv st) (hp : st.persistence = .mkLazy rules)
    (h : Alarm rules T st) (s : Step st e a st') (ht : ReadsBy T e) :
    Alarm rules T st' ∧ st'.persistence = .mkLazy rules := by
  cases s with
  | op ck o =>
    have hre := removeExpired_inv hi.exp ck.now
    have hx := exec_ok hre ck.now o
    have hpp : ((st.removeExpired ck.now).exec ck.now o).2.persistence = .mkLazy rules := by
      rw [hx.back.persistence]; exact hp
    simp only [St.perform]
    cases hr : (st.removeExpired ck.now).exec ck.now o with
    | mk r st2 =>
      rw [hr] at hx hpp
      cases r with
      | ok v =>
        exact ⟨alarm_settle ht.2.2 hpp hx.inv.queue, (settle_persistence st2 ck).trans hpp⟩
      | error er =>
        have h2 := exec_error hr
        simp only
        subst h2
        refine ⟨?_, hpp⟩
        by_cases hex : ∃ k t, st.expiring.get k = some t ∧ t ≤ ck.now
        · -- some key expired: the worker is due already
          obtain ⟨k, t, hk, hle⟩ := hex
          have hT : WokenBy st.target T := by
            have := h.expirations k t hk
            have hm : max t T = T := by have := ht.1; omega
            rwa [hm] at this
          refine ⟨fun k t _ => ?_, fun _ _ r _ _ _ => ?_⟩
          · exact WokenBy.mono (tg := st.target) hT (Nat.le_max_right _ _)
          · exact WokenBy.mono (tg := st.target) hT (Nat.le_max_right _ _)
        · have hn : ∀ k t, st.expiring.get k = some t → ¬ t ≤ ck.now := fun k t hk hle => hex ⟨k, t, hk, hle⟩
          have hl := removeLoop_nothing (d := st.dirty) hi.exp.queue hn
          have hsame : st.removeExpired ck.now = st := by
            simp only [St.removeExpired, hl]
          rw [hsame]
          exact h
  | tick ck =>
    have hre := removeExpired_inv hi.exp ck.now
    exact ⟨alarm_settle ht.2.2 hp hre.queue, (settle_persistence _ ck).trans hp⟩
  | write b hw hb =>
    obtain ⟨h1, h2, h3, h4, h5, h6⟩ := write_rest st b
    have h7 : (st.write b).target = st.target ∧ (st.write b).lastCommit = st.lastCommit ∧
        (st.write b).persistence = st.persistence := by
      simp only [St.write]; split <;> exact ⟨rfl, rfl, rfl⟩
    refine ⟨h.congr h3 h7.1 ?_, h7.2.2.trans hp⟩
    intro hn
    rw [h2, hb] at hn
    cases hn
  | fail hw => exact ⟨h.congr rfl rfl (fun hn => ⟨hn, rfl, rfl⟩), hp⟩
  | finish now hw =>
    have h1 : Alarm rules T ({ st with persisting := none, writer := .idle }.updateTarget now) :=
      alarm_updateTarget (rules := rules) (st := { st with persisting := none, writer := .idle }) ht hp
        hi.exp.queue
    simp only [St.finish]
    split
    · cases hst : ({ st with persisting := none, writer := .idle }.updateTarget now).stage with
      | some st' =>
        obtain ⟨_, _, rfl⟩ := stage_some hst
        exact ⟨h1.congr rfl rfl (fun hn => by cases hn), hp⟩
      | none => exact ⟨h1.congr rfl rfl (fun hn => ⟨hn, rfl, rfl⟩), hp⟩
    · exact ⟨h1, hp⟩
  | shutdown now =>
    simp only [St.beginShutdown]
    split
    · exact ⟨h, hp⟩
    · rename_i hn
      cases hst : st.stage with
      | some st' =>
        obtain ⟨_, _, rfl⟩ := stage_some hst
        have hcm : st.commit now = ({ st with dirty := .empty, persisting := some st.dirty, lastCommit := now, writer := .writing }, true) := by
          simp only [St.commit, hst]
        rw [hcm]
        exact ⟨h.congr rfl rfl (fun hn => by cases hn), hp⟩
      | none =>
        have hcm : st.commit now = (st, false) := by simp only [St.commit, hst]
        rw [hcm]
        exact ⟨h, hp⟩

/-- **C43.** In every execution of a lazily persisted store whose clock readings so far are at most
`T`, the background worker's alarm is set for no later than each pending expiration and, when no batch
is in flight, for no later than the moment each threshold whose count is met elapses (or it is due at
once, if that moment has passed). -/
theorem C43_worker_is_woken_in_time (rules : List Threshold) (t0 : Nat) (log : List (List (Bytes × Bool)))
    (T : Nat) {es : List (Event F)} {as : List (Except Err (Output F))} {st : St F}
    (r : Run (St.new (.mkLazy rules) t0 .empty log) es as st) (hT : ∀ e ∈ es, ReadsBy T e) :
    (∀ k v t, st.look k = some (v, some t) → WokenBy st.target (max t T)) ∧
    (st.persisting = none → 0 < st.dirty.list.length →
      ∀ r ∈ rules, r.changes ≤ st.dirty.list.length → r.duration < durationMax →
        WokenBy st.target (max (st.lastCommit + r.duration) T)) := by
  have main : ∀ {st₀ st : St F} {es : List (Event F)} {as : List (Except Err (Output F))}, Run st₀ es as st →
      Inv st₀ → st₀.persistence = .mkLazy rules → Alarm rules T st₀ → (∀ e ∈ es, ReadsBy T e) →
      Alarm rules T st ∧ Inv st := by
    intro st₀ st es as r
    induction r with
    | nil => exact fun hi _ h _ => ⟨h, hi⟩
    | cons s r ih =>
      intro hi hp h hT
      obtain ⟨h1, h2⟩ := alarm_step hi hp h s (hT _ (by simp))
      exact ih (step_inv hi s) h2 h1 (fun e he => hT e (by simp [he]))
  have h0 : Alarm rules T (St.new (.mkLazy rules) t0 (.empty : OMap (Entry F)) log) := by
    refine ⟨?_, ?_⟩
    · intro k t hk; cases hk
    · intro _ hpos; simp [St.new, OMap.empty] at hpos
  obtain ⟨ha, hi⟩ := main r (inv_new _ t0 log) rfl h0 hT
  refine ⟨?_, ha.commits⟩
  intro k v t hk
  refine ha.expirations k t ?_
  rw [hi.exp.tracked k]
  simp only [St.look, Option.map_eq_some_iff] at hk
  obtain ⟨e, he, hev⟩ := hk
  rw [he]
  simp only [Prod.mk.injEq] at hev
  exact hev.2

/-! ### Concrete cases -/

example : ThresholdMet [⟨1, 100⟩, ⟨10, 5⟩] 10 5 := ⟨by decide, ⟨10, 5⟩, by simp, by decide, by decide⟩
example : ¬ ThresholdMet [⟨1, 100⟩, ⟨10, 5⟩] 9 99 := by
  rintro ⟨_, r, hr, h1, h2⟩
  simp only [List.mem_cons, List.not_mem_nil, or_false] at hr
  rcases hr with rfl | rfl <;> simp at h1 h2

/-- A store with one waiting key and one key that expires: the alarm is set for the earlier of the two. -/
def exAlarm : St Unit :=
  ((St.new (.mkLazy [⟨1, 100⟩]) 0 .empty []).perform (exClock 5) ⟨exKey, .set (plainSet (.bytes [1]) (some 50))⟩).2

unseal durationMax in
example : exAlarm.target = .at 50 ∧ exAlarm.persisting = none ∧ exAlarm.dirty.list.length = 1 := ⟨rfl, rfl, rfl⟩

end Bonsai.KV
