import Verif.KV.C37

/-!
# C40: key-value persistence is crash consistent.  C41: clean shutdown.

A crash keeps `disk` and loses everything else, at any point of an execution.
-/
set_option linter.unusedSimpArgs false
set_option linter.unusedSectionVars false

namespace Bonsai.KV
open Bonsai

variable {F : Type} [FloatOps F]

/-- A batch laid over the keys on disk. -/
def overlay (b : OMap (Option (Entry F))) (disk : OMap (Entry F)) (k : Bytes) : Option (Entry F) :=
  match b.get k with
  | some v => v
  | none => disk.get k

/-- `persisting`, `writer`, `disk` and `log` are untouched. -/
structure SamePersist (st st' : St F) : Prop where
  persisting : st'.persisting = st.persisting
  writer : st'.writer = st.writer
  disk : st'.disk = st.disk
  log : st'.log = st.log

theorem SamePersist.refl (st : St F) : SamePersist st st := ⟨rfl, rfl, rfl, rfl⟩

theorem SamePersist.trans {a b c : St F} (h : SamePersist a b) (g : SamePersist b c) : SamePersist a c :=
  ⟨g.persisting.trans h.persisting, g.writer.trans h.writer, g.disk.trans h.disk, g.log.trans h.log⟩

theorem SameBack.samePersist {a b : St F} (h : SameBack a b) : SamePersist a b :=
  ⟨h.persisting, h.writer, h.disk, h.log⟩

/-- A step either leaves the persisting side alone, or stages a batch that, laid over the disk, is the
present contents. -/
def Stages (st st' : St F) : Prop :=
  SamePersist st st' ∨
  (st.writer ≠ .writing ∧ st'.writer = .writing ∧ st'.disk = st.disk ∧ st'.log = st.log ∧
    ∃ b, st'.persisting = some b ∧ ∀ k, overlay b st'.disk k = st'.get k)

theorem staged_overlay {st st' : St F} (h : st.stage = some st') :
    ∃ b, st'.persisting = some b ∧ st'.disk = st.disk ∧ st'.log = st.log ∧
      ∀ k, overlay b st'.disk k = st'.get k := by
  obtain ⟨h1, _, rfl⟩ := stage_some h
  refine ⟨_, rfl, rfl, rfl, ?_⟩
  intro k
  simp only [overlay, St.get, OMap.get_empty, Option.bind_some]
  cases st.dirty.get k <;> rfl

theorem commit_stages {st : St F} (now : Nat) (h : PersistInv st) : Stages st (st.commit now).1 := by
  simp only [St.commit]
  cases hs : st.stage with
  | none => exact .inl (.refl _)
  | some st' =>
    obtain ⟨b, h1, h2, h3, h4⟩ := staged_overlay hs
    refine .inr ⟨?_, rfl, h2, h3, b, h1, h4⟩
    have := h.idle.mpr (stage_some hs).1
    rw [this]; simp

theorem stages_target {st st' : St F} (h : Stages st st') (now : Nat) : Stages st (st'.updateTarget now) := by
  rcases h with h | ⟨h1, h2, h3, h4, b, h5, h6⟩
  · exact .inl ⟨h.persisting, h.writer, h.disk, h.log⟩
  · exact .inr ⟨h1, h2, h3, h4, b, h5, h6⟩

theorem settle_stages {st : St F} (ck : Clock) (h : PersistInv st) : Stages st (st.settle ck) := by
  simp only [St.settle]
  split
  · exact stages_target (commit_stages _ h) _
  · exact stages_target (.inl (.refl _)) _

theorem stages_after {a b c : St F} (h : SamePersist a b) (g : Stages b c) : Stages a c := by
  rcases g with g | ⟨h1, h2, h3, h4, x, h5, h6⟩
  · exact .inl (h.trans g)
  · exact .inr ⟨by rw [← h.writer]; exact h1, h2, h3.trans h.disk, h4.trans h.log, x, h5, h6⟩

theorem execSet_back (st : St F) (k : Bytes) (c : SetCommand F) (now : Nat) :
    SameBack st (st.execSet k c now).2 := by
  simp only [St.execSet]
  cases c.value.validate with
  | error e => exact .refl _
  | ok v =>
    generalize (if c.check.isSome = true ∨ c.returnPrevious = true ∨ c.keepExisting = true then
      some (st.get k) else none) = f
    simp only
    split
    · cases f with
      | some e =>
        simp only [set_eq]
        split
        · exact SameBack.write st k _ _
        · split <;> exact SameBack.write st k _ _
      | none =>
        simp only [replace_eq]
        split
        · exact SameBack.write st k _ _
        · split <;> exact SameBack.write st k _ _
    · exact .refl _

theorem execNumeric_back (st : St F) (k : Bytes) (a : Numeric F) (s : Bool) (now : Nat)
    (op : Numeric F → Numeric F → Bool → Numeric F) : SameBack st (st.execNumeric k a s now op).2 := by
  simp only [St.execNumeric]
  split
  · split
    · exact .refl _
    · exact .writeDirty _ _ _
  · exact .refl _

/-- No command touches the disk, the log, the batch or the thread; no invariant is needed. -/
theorem exec_back (st : St F) (now : Nat) (op : KeyOp F) : SameBack st (st.exec now op).2 := by
  rcases op with ⟨k, c⟩
  cases c with
  | set c => exact execSet_back st k c now
  | get d =>
    cases d with
    | false => exact .refl _
    | true => simp only [St.exec, remove_eq]; exact SameBack.write st k none none
  | delete => simp only [St.exec, remove_eq]; exact SameBack.write st k none none
  | increment a s => exact execNumeric_back st k a s now increment
  | decrement a s => exact execNumeric_back st k a s now decrement

theorem perform_stages {st : St F} (h : PersistInv st) (ck : Clock) (op : KeyOp F) :
    Stages st (st.perform ck op).2 ∧ PersistInv (st.perform ck op).2 := by
  have hb := (SameBack.removeExpired st ck.now).trans (exec_back (st.removeExpired ck.now) ck.now op)
  simp only [St.perform]
  cases hr : (st.removeExpired ck.now).exec ck.now op with
  | mk a st' =>
    rw [hr] at hb
    cases a with
    | error e => exact ⟨.inl hb.samePersist, hb.persist h⟩
    | ok o => exact ⟨stages_after hb.samePersist (settle_stages ck (hb.persist h)), settle_persist ck (hb.persist h)⟩

theorem tick_stages {st : St F} (h : PersistInv st) (ck : Clock) : Stages st (st.tick ck) :=
  stages_after (SameBack.removeExpired st ck.now).samePersist
    (settle_stages ck ((SameBack.removeExpired st ck.now).persist h))

theorem finish_stages {st : St F} (now : Nat) (hw : st.writer = .written) :
    (st.finish now).disk = st.disk ∧ (st.finish now).log = st.log ∧
    (((st.finish now).writer = .idle) ∨ ((st.finish now).writer = .writing ∧ Stages st (st.finish now))) := by
  simp only [St.finish]
  split
  · split
    · rename_i st' hs
      obtain ⟨b, h1, h2, h3, h4⟩ := staged_overlay hs
      exact ⟨h2, h3, .inr ⟨rfl, .inr ⟨by rw [hw]; simp, rfl, h2, h3, b, h1, h4⟩⟩⟩
    · exact ⟨rfl, rfl, .inl rfl⟩
  · exact ⟨rfl, rfl, .inl rfl⟩

theorem beginShutdown_stages {st : St F} (now : Nat) (h : PersistInv st) :
    Stages st (st.beginShutdown now).1 := by
  simp only [St.beginShutdown]
  split
  · exact .inl (.refl _)
  · have := commit_stages now h
    split
    · rcases this with h | ⟨h1, h2, h3, h4, b, h5, h6⟩
      · exact .inl ⟨h.persisting, h.writer, h.disk, h.log⟩
      · exact .inr ⟨h1, h2, h3, h4, b, h5, h6⟩
    · exact this

/-! ## Executions of a store opened on any disk -/

/-- A step of a store that may still be loading expirations: any step, or the expiration loader
(keyvalue.rs:852-868) updating one key with any expiration. -/
inductive LStep : St F → St F → Prop where
  | base {st st' : St F} {e : Event F} {a : Option (Except Err (Output F))} (s : Step st e a st') : LStep st st'
  | load (st : St F) (k : Bytes) (x : Option Nat) (now : Nat) :
      LStep st ((st.updateExpiration k x).updateTarget now)

/-- An execution as a sequence of states: `σ 0` is a store just opened on any disk, each next state is
one step later, up to `σ n`. -/
structure Exec (σ : Nat → St F) (n : Nat) : Prop where
  opened : ∃ p t0 disk log, σ 0 = St.new p t0 disk log
  step : ∀ i, i < n → LStep (σ i) (σ (i + 1))

/-- What a step can do to the disk side. -/
theorem lstep_disk {st st' : St F} (h : PersistInv st) (s : LStep st st') :
    PersistInv st' ∧
    (Stages st st' ∨
     (st.writer = .writing ∧ st'.writer = .written ∧ ∃ b, st.persisting = some b ∧ st' = st.write b) ∨
     (st'.disk = st.disk ∧ st'.log = st.log ∧ (st'.writer = .idle ∨ st'.writer = .dead))) := by
  cases s with
  | base s =>
    cases s with
    | op ck o => exact ⟨(perform_stages h ck o).2, .inl (perform_stages h ck o).1⟩
    | tick ck =>
      exact ⟨settle_persist ck ((SameBack.removeExpired st ck.now).persist h), .inl (tick_stages h ck)⟩
    | write b hw hb =>
      exact ⟨write_persist hb, .inr (.inl ⟨hw, (write_rest st b).2.2.2.2.2, b, hb, rfl⟩)⟩
    | fail hw =>
      refine ⟨⟨?_, ?_⟩, .inr (.inr ⟨rfl, rfl, .inr rfl⟩)⟩
      · have := h.idle
        rw [hw] at this
        simp at this
        simp [this]
      · intro hd; cases hd
    | finish now hw =>
      obtain ⟨h1, h2, h3⟩ := finish_stages now hw
      refine ⟨finish_persist now, ?_⟩
      rcases h3 with h3 | ⟨_, h3⟩
      · exact .inr (.inr ⟨h1, h2, .inl h3⟩)
      · exact .inl h3
    | shutdown now => exact ⟨beginShutdown_persist now h, .inl (beginShutdown_stages now h)⟩
  | load k x now =>
    obtain ⟨_, h2, h3, h4, h5, _⟩ := updateExpiration_dirty (st := st) k x
    refine ⟨⟨?_, ?_⟩, .inl (.inl ⟨h2, h4, h3, h5⟩)⟩
    · show (st.updateExpiration k x).writer = .idle ↔ (st.updateExpiration k x).persisting = none
      rw [h4, h2]; exact h.idle
    · show (st.updateExpiration k x).writer = .written → ∀ b, (st.updateExpiration k x).persisting = some b →
        ∀ k' e, b.get k' = some e → (st.updateExpiration k x).disk.get k' = e
      rw [h4, h2, h3]; exact h.written

/-- Whether the step from `i` staged a new batch / wrote it. -/
def staged (σ : Nat → St F) (i : Nat) : Prop := (σ i).writer ≠ .writing ∧ (σ (i + 1)).writer = .writing
def wrote (σ : Nat → St F) (i : Nat) : Prop := (σ i).writer = .writing ∧ (σ (i + 1)).writer = .written

open Classical in
/-- When the batch last staged was staged. -/
noncomputable def stageTime (σ : Nat → St F) : Nat → Nat
  | 0 => 0
  | i + 1 => if staged σ i then i + 1 else stageTime σ i

open Classical in
/-- The moment whose contents are on disk. -/
noncomputable def diskTime (σ : Nat → St F) : Nat → Nat
  | 0 => 0
  | i + 1 => if wrote σ i then stageTime σ i else diskTime σ i

theorem stageTime_le (σ : Nat → St F) (i : Nat) : stageTime σ i ≤ i := by
  induction i with
  | zero => simp [stageTime]
  | succ i ih => simp only [stageTime]; split <;> omega

theorem exec_facts {σ : Nat → St F} {n : Nat} (h : Exec σ n) (i : Nat) (hi : i ≤ n) :
    PersistInv (σ i) ∧ diskTime σ i ≤ stageTime σ i ∧
    (∀ k, (σ i).disk.get k = (σ (diskTime σ i)).get k) ∧
    ((σ i).writer = .writing → ∃ b, (σ i).persisting = some b ∧
      ∀ k, overlay b (σ i).disk k = (σ (stageTime σ i)).get k) := by
  induction i with
  | zero =>
    obtain ⟨p, t0, disk, log, h0⟩ := h.opened
    refine ⟨?_, Nat.le_refl _, ?_, ?_⟩
    · rw [h0]
      exact ⟨by simp [St.new], by intro hw; simp [St.new] at hw⟩
    · intro k
      simp only [diskTime]
      rw [h0]; rfl
    · intro hw; rw [h0] at hw; simp [St.new] at hw
  | succ i ih =>
    obtain ⟨hp, hle, hd, hb⟩ := ih (by omega)
    obtain ⟨hp', hc⟩ := lstep_disk hp (h.step i (by omega))
    refine ⟨hp', ?_⟩
    rcases hc with (hs | ⟨s1, s2, s3, _, b, s5, s6⟩) | ⟨w1, w2, b, w3, w4⟩ | ⟨d1, _, d3⟩
    · -- nothing happened to the disk side
      have n1 : ¬ staged σ i := by rintro ⟨a, b⟩; rw [hs.writer] at b; exact a b
      have n2 : ¬ wrote σ i := by rintro ⟨a, b⟩; rw [hs.writer, a] at b; cases b
      simp only [stageTime, diskTime, if_neg n1, if_neg n2, hs.writer, hs.persisting, hs.disk]
      exact ⟨hle, hd, hb⟩
    · -- a batch was staged
      have n1 : staged σ i := ⟨s1, s2⟩
      have n2 : ¬ wrote σ i := fun h => s1 h.1
      simp only [stageTime, diskTime, if_pos n1, if_neg n2]
      have := stageTime_le σ i
      refine ⟨by omega, ?_, fun _ => ⟨b, s5, s6⟩⟩
      intro k; rw [s3]; exact hd k
    · -- the batch was written
      have n1 : ¬ staged σ i := fun h => h.1 w1
      have n2 : wrote σ i := ⟨w1, w2⟩
      simp only [stageTime, diskTime, if_neg n1, if_pos n2]
      refine ⟨Nat.le_refl _, ?_, ?_⟩
      · intro k
        obtain ⟨b', hb1, hb2⟩ := hb w1
        rw [w3] at hb1
        cases hb1
        rw [w4, write_disk, ← hb2 k]
        simp only [overlay]
        cases b.get k <;> rfl
      · intro hw; rw [w2] at hw; cases hw
    · -- the thread failed or finished
      have hnw : (σ (i + 1)).writer ≠ .writing := by rcases d3 with h | h <;> rw [h] <;> simp
      have n1 : ¬ staged σ i := fun h => hnw h.2
      have n2 : ¬ wrote σ i := by
        rintro ⟨_, h⟩
        rcases d3 with h' | h' <;> rw [h'] at h <;> cases h
      simp only [stageTime, diskTime, if_neg n1, if_neg n2]
      refine ⟨hle, ?_, fun hw => absurd hw hnw⟩
      intro k; rw [d1]; exact hd k

theorem stageTime_mono (σ : Nat → St F) (i : Nat) : stageTime σ i ≤ stageTime σ (i + 1) := by
  have := stageTime_le σ i
  simp only [stageTime]
  split <;> omega

theorem diskTime_mono {σ : Nat → St F} {n : Nat} (h : Exec σ n) {i j : Nat} (hij : i ≤ j) (hj : j ≤ n) :
    diskTime σ i ≤ diskTime σ j := by
  induction j with
  | zero => have : i = 0 := by omega
            subst this; exact Nat.le_refl _
  | succ j ih =>
    rcases Nat.lt_or_ge i (j + 1) with hlt | hge
    · have h1 := ih (by omega) (by omega)
      have h2 := (exec_facts h j (by omega)).2.1
      refine Nat.le_trans h1 ?_
      simp only [diskTime]
      split
      · exact h2
      · exact Nat.le_refl _
    · have : i = j + 1 := by omega
      subst this; exact Nat.le_refl _

/-- **C40.** Crash an execution at any point `i` and reopen the store: it contains exactly what it
contained at some earlier moment `f i` of that execution (whole batches), and the moment never goes
back as the execution proceeds (batches are committed in order, and none is lost once committed). -/
theorem C40_crash_recovers_an_earlier_moment {σ : Nat → St F} {n : Nat} (h : Exec σ n) :
    ∃ f : Nat → Nat, (∀ i j, i ≤ j → j ≤ n → f i ≤ f j) ∧
      ∀ i, i ≤ n → f i ≤ i ∧
        ∀ p t, (St.new p t (σ i).disk (σ i).log).look = (σ (f i)).look := by
  refine ⟨diskTime σ, fun i j hij hj => diskTime_mono h hij hj, ?_⟩
  intro i hi
  obtain ⟨_, h2, h3, _⟩ := exec_facts h i hi
  refine ⟨Nat.le_trans h2 (stageTime_le σ i), ?_⟩
  intro p t
  funext k
  have : (St.new p t (σ i).disk (σ i).log).get k = (σ i).disk.get k := rfl
  simp only [St.look, this, h3]

/-- **C40.** When no key is waiting and no batch is in flight, a crash loses nothing. -/
theorem C40_quiescent_crash_loses_nothing (st : St F) (hd : st.dirty.list = []) (hp : st.persisting = none)
    (p : Persistence) (t : Nat) : (St.new p t st.disk st.log).look = st.look := by
  funext k
  have h1 : st.dirty.get k = none := by
    simp only [OMap.get]; rw [hd]; rfl
  have h2 : st.get k = st.disk.get k := by simp [St.get, h1, hp]
  have : (St.new p t st.disk st.log).get k = st.disk.get k := rfl
  simp only [St.look, this, h2]

/-! ## The logged changes -/

theorem mem_persistBatch {l : List (Bytes × Option (Entry F))} (hs : SortedL l) (disk : OMap (Entry F))
    (k : Bytes) (d : Bool) :
    (k, d) ∈ (persistBatch l disk).2 ↔
      ∃ v, (k, v) ∈ l ∧ ((d = false ∧ v.isSome) ∨ (d = true ∧ v = none ∧ (disk.get k).isSome)) := by
  induction l generalizing disk with
  | nil => simp [persistBatch]
  | cons p l ih =>
    obtain ⟨x, w⟩ := p
    obtain ⟨h1, h2⟩ := List.pairwise_cons.mp hs
    simp only [persistBatch, List.mem_append, ih h2]
    have hdisk : ∀ v, (k, v) ∈ l → (persistKey disk x w).1.get k = disk.get k := by
      intro v hv
      have : x ≠ k := by intro hx; subst hx; exact bytes_lt_irrefl _ (h1 (_, v) hv)
      rw [persistKey_get]; simp [this]
    have hhead : (k, d) ∈ (persistKey disk x w).2.toList ↔
        x = k ∧ ((d = false ∧ w.isSome) ∨ (d = true ∧ w = none ∧ (disk.get k).isSome)) := by
      cases w with
      | some e =>
        simp only [persistKey, Option.toList_some, List.mem_singleton, Prod.mk.injEq]
        constructor
        · rintro ⟨rfl, rfl⟩; simp
        · rintro ⟨rfl, h⟩; simpa using h
      | none =>
        simp only [persistKey]
        split
        · rename_i hi
          simp only [Option.toList_some, List.mem_singleton, Prod.mk.injEq]
          constructor
          · rintro ⟨rfl, rfl⟩; simp [hi]
          · rintro ⟨rfl, h⟩; simp at h; exact ⟨rfl, h.1⟩
        · rename_i hi
          simp only [Option.toList_none, List.not_mem_nil, false_iff]
          rintro ⟨rfl, h⟩
          simp at h
          exact hi h.2
    rw [hhead]
    constructor
    · rintro (⟨rfl, h⟩ | ⟨v, hv, h⟩)
      · exact ⟨w, by simp, h⟩
      · rw [hdisk v hv] at h
        exact ⟨v, by simp [hv], h⟩
    · rintro ⟨v, hv, h⟩
      simp only [List.mem_cons, Prod.mk.injEq] at hv
      rcases hv with ⟨rfl, rfl⟩ | hv
      · exact .inl ⟨rfl, h⟩
      · refine .inr ⟨v, hv, ?_⟩
        rw [hdisk v hv]; exact h

theorem persistBatch_keys {l : List (Bytes × Option (Entry F))} (hs : SortedL l) (disk : OMap (Entry F)) :
    ((persistBatch l disk).2.map (·.1)).Sublist (l.map (·.1)) := by
  induction l generalizing disk with
  | nil => exact List.Sublist.slnil
  | cons p l ih =>
    obtain ⟨x, w⟩ := p
    obtain ⟨_, h2⟩ := List.pairwise_cons.mp hs
    have hi := ih h2 (persistKey disk x w).1
    simp only [persistBatch, List.map_append, List.map_cons]
    cases w with
    | some e => exact hi.cons_cons x
    | none =>
      simp only [persistKey] at hi ⊢
      split
      · rename_i h; simp only [h, if_true] at hi; exact hi.cons_cons x
      · rename_i h; simp only [h] at hi; exact hi.cons x

/-- **C40.** A step that changes the disk appends exactly one record to the log; it has at most one
entry per key; every key whose entry on disk changed is in it; every key in it was stored (`false`) or
was there and was removed (`true`). A step that leaves the log alone leaves the disk alone. -/
theorem C40_logged_keys_are_the_changed_keys {σ : Nat → St F} {n : Nat} (h : Exec σ n) (i : Nat)
    (hi : i < n) :
    ((σ (i + 1)).log = (σ i).log ∧ (σ (i + 1)).disk = (σ i).disk) ∨
    ∃ rec, (σ (i + 1)).log = (σ i).log ++ [rec] ∧ rec ≠ [] ∧ (rec.map (·.1)).Nodup ∧
      (∀ k, (σ (i + 1)).disk.get k ≠ (σ i).disk.get k → ∃ d, (k, d) ∈ rec) ∧
      (∀ k, (k, false) ∈ rec → ((σ (i + 1)).disk.get k).isSome) ∧
      (∀ k, (k, true) ∈ rec → ((σ i).disk.get k).isSome ∧ (σ (i + 1)).disk.get k = none) := by
  obtain ⟨hp, _, _, _⟩ := exec_facts h i (by omega)
  obtain ⟨_, hc⟩ := lstep_disk hp (h.step i hi)
  rcases hc with (hs | ⟨_, _, s3, s4, _⟩) | ⟨w1, w2, b, w3, w4⟩ | ⟨d1, d2, _⟩
  · exact .inl ⟨hs.log, hs.disk⟩
  · exact .inl ⟨s4, s3⟩
  · have hget := fun k => write_disk (σ i) b k
    rw [w4]
    by_cases he : (persistBatch b.list (σ i).disk).2 = []
    · left
      simp only [St.write, he, if_true]
      exact ⟨trivial, trivial⟩
    · right
      have hm := mem_persistBatch b.sorted (σ i).disk
      refine ⟨_, by simp only [St.write, he, if_false], he, ?_, ?_, ?_, ?_⟩
      · exact (persistBatch_keys b.sorted (σ i).disk).nodup b.keys_nodup
      · intro k hk
        rw [hget] at hk
        cases hb : b.get k with
        | none => rw [hb] at hk; exact absurd rfl hk
        | some v =>
          rw [hb] at hk
          cases v with
          | some e => exact ⟨false, (hm k false).mpr ⟨some e, OMap.mem_list_iff.mpr hb, by simp⟩⟩
          | none =>
            refine ⟨true, (hm k true).mpr ⟨none, OMap.mem_list_iff.mpr hb, .inr ⟨rfl, rfl, ?_⟩⟩⟩
            cases hd : (σ i).disk.get k with
            | none => rw [hd] at hk; exact absurd rfl hk
            | some e => rfl
      · intro k hk
        obtain ⟨v, hv, hc⟩ := (hm k false).mp hk
        rw [hget, OMap.mem_list_iff.mp hv]
        simpa using hc
      · intro k hk
        obtain ⟨v, hv, hc⟩ := (hm k true).mp hk
        simp only [Bool.true_eq_false, false_and, true_and, false_or] at hc
        rw [hget, OMap.mem_list_iff.mp hv]
        exact ⟨hc.2, hc.1⟩
  · exact .inl ⟨d2, d1⟩

/-! ### A concrete execution: two sets, a batch of one, a crash before the second is written -/

def exA : St Unit := St.new .immediate 0 .empty []
def exB : St Unit := (exA.perform (exClock 5) ⟨exKey, .set (plainSet (.bytes [1]) none)⟩).2
def exC : St Unit := (exB.perform (exClock 6) ⟨exKey, .set (plainSet (.bytes [2]) none)⟩).2
def exBatch : OMap (Option (Entry Unit)) := exC.persisting.getD .empty
def exD : St Unit := exC.write exBatch
def exSeq : Nat → St Unit
  | 0 => exA | 1 => exB | 2 => exC | _ => exD

theorem exSeq_exec : Exec exSeq 3 := by
  refine ⟨⟨_, _, _, _, rfl⟩, ?_⟩
  intro i hi
  match i, hi with
  | 0, _ => exact .base (.op exA _ _)
  | 1, _ => exact .base (.op exB _ _)
  | 2, _ => exact .base (.write exC exBatch rfl rfl)

/-- At the end the disk has the first value, the store the second. -/
example : (exSeq 3).disk.get exKey = some ⟨.bytes [1], none, 5⟩ ∧
    (exSeq 3).get exKey = some ⟨.bytes [2], none, 6⟩ ∧ (exSeq 3).log = [[(exKey, false)]] := ⟨rfl, rfl, rfl⟩

/-! ## C41: shutdown -/

/-- What can still happen after the last handle is dropped: no operation, only the background worker
and the persisting thread. -/
inductive Winding : St F → St F → Prop where
  | refl (st : St F) : Winding st st
  | step {st st' st'' : St F} {e : Event F} {a : Option (Except Err (Output F))} (w : Winding st st')
      (he : (∃ ck, e = .tick ck) ∨ e = .write ∨ ∃ now, e = .finish now) (s : Step st' e a st'') :
      Winding st st''

/-- While the shutdown is pending a batch is in flight. -/
def Pending (st : St F) : Prop := PersistInv st ∧ (st.shutdown = true → st.persisting.isSome)

theorem settle_busy {st : St F} (ck : Clock) (h : st.persisting.isSome) :
    st.settle ck = st.updateTarget ck.target := by
  obtain ⟨b, hb⟩ := Option.isSome_iff_exists.mp h
  simp [St.settle, St.needsCommit, hb]

theorem settle_shutdown (st : St F) (ck : Clock) : (st.settle ck).shutdown = st.shutdown := by
  simp only [St.settle]
  split
  · show (st.commit ck.commit).1.shutdown = _
    simp only [St.commit]
    cases h : st.stage with
    | none => rfl
    | some st' => obtain ⟨_, _, rfl⟩ := stage_some h; rfl
  · rfl

theorem pending_tick {st : St F} (h : Pending st) (ck : Clock) : Pending (st.tick ck) := by
  have hb := SameBack.removeExpired st ck.now
  refine ⟨settle_persist ck (hb.persist h.1), ?_⟩
  intro hs
  have hsd : (st.tick ck).shutdown = st.shutdown := settle_shutdown _ _
  have hp := h.2 (by rw [← hsd]; exact hs)
  have : (st.removeExpired ck.now).persisting.isSome := hp
  simp only [St.tick, settle_busy ck this]
  exact hp

theorem finish_shutdown {st : St F} (now : Nat) (hs : st.shutdown = true) :
    ((st.finish now).shutdown = true ∧ (st.finish now).persisting.isSome) ∨
    ((st.finish now).shutdown = false ∧ (st.finish now).dirty.list = [] ∧ (st.finish now).persisting = none) := by
  have hu : ({ st with persisting := none, writer := .idle }.updateTarget now).shutdown = true := hs
  simp only [St.finish, hu, if_true]
  cases hst : ({ st with persisting := none, writer := .idle }.updateTarget now).stage with
  | some st' =>
    obtain ⟨_, _, rfl⟩ := stage_some hst
    exact .inl ⟨hs, rfl⟩
  | none =>
    refine .inr ⟨rfl, ?_, rfl⟩
    simp only [St.stage] at hst
    split at hst
    · cases hst
    · rename_i hn
      simp only [ne_eq, not_and] at hn
      show st.dirty.list = []
      cases hd : st.dirty.list with
      | nil => rfl
      | cons a l =>
        exfalso
        refine hn ?_ rfl
        show ¬ st.dirty.list = []
        rw [hd]; simp

theorem pending_winding {st st' : St F} (h : Pending st) (w : Winding st st') : Pending st' := by
  induction w with
  | refl => exact h
  | step w he s ih =>
    rcases he with ⟨ck, rfl⟩ | rfl | ⟨now, rfl⟩
    · cases s; exact pending_tick ih ck
    · cases s with
      | write b hw hb =>
        obtain ⟨_, h2, _, _, h5, _⟩ := write_rest _ b
        exact ⟨write_persist hb, by rw [h2, hb]; simp⟩
    · cases s with
      | finish _ hw =>
        refine ⟨finish_persist now, ?_⟩
        intro hs
        rename_i st'
        cases hsd : st'.shutdown with
        | true =>
          rcases finish_shutdown now hsd with h | h
          · exact h.2
          · rw [h.1] at hs; cases hs
        | false =>
          have hu : ({ st' with persisting := none, writer := .idle }.updateTarget now).shutdown = false := hsd
          simp only [St.finish, hu, Bool.false_eq_true, if_false] at hs

/-- Everything the store contains is on disk. -/
def AllOnDisk (st : St F) : Prop := ∀ k, st.disk.get k = st.get k

theorem allOnDisk_of_clean {st : St F} (hd : st.dirty.list = []) (hp : st.persisting = none) :
    AllOnDisk st := by
  intro k
  have h1 : st.dirty.get k = none := by simp only [OMap.get]; rw [hd]; rfl
  simp [St.get, h1, hp]

/-- **C41, partial.** If no batch is in flight when the last handle is dropped, then either the drop
does not wait and everything is already on disk, or it waits, and when the persisting thread releases
it everything the store contained is on disk, whatever the background worker did meanwhile.

The full property has no hypothesis about batches in flight; `C41_violated_batch_in_flight` shows that
it fails without it. (A failure of the persisting thread also leaves the drop waiting for ever: the
`fail` step is not part of `Winding`.) -/
theorem C41_clean_shutdown_persists_partial {st : St F} (h : PersistInv st) (hn : st.persisting = none)
    (now : Nat) :
    ((st.beginShutdown now).2 = false → AllOnDisk (st.beginShutdown now).1) ∧
    ((st.beginShutdown now).2 = true → ∀ st' t, Winding (st.beginShutdown now).1 st' →
      st'.shutdown = true → st'.writer = .written → (st'.finish t).shutdown = false →
        AllOnDisk (st'.finish t) ∧ ∀ k, (st'.finish t).get k = st'.get k) := by
  constructor
  · intro hr
    have hdirty : st.dirty.list = [] := by
      cases hd : st.dirty.list with
      | nil => rfl
      | cons a l =>
        exfalso
        have hs : st.stage = some { st with dirty := .empty, persisting := some st.dirty } := by
          simp [St.stage, hd, hn]
        simp [St.beginShutdown, hn, St.commit, hs] at hr
    have hs : st.stage = none := by simp [St.stage, hdirty]
    have : (st.beginShutdown now).1 = st := by simp [St.beginShutdown, hn, St.commit, hs]
    rw [this]
    exact allOnDisk_of_clean hdirty hn
  · intro _ st' t w hs hw hf
    rcases finish_shutdown t hs with hfin | hfin
    · rw [hfin.1] at hf; cases hf
    · have hp : Pending (st.beginShutdown now).1 := by
        refine ⟨beginShutdown_persist now h, ?_⟩
        cases hst : st.stage with
        | none =>
          intro hsd
          have : (st.beginShutdown now).1 = st := by simp [St.beginShutdown, hn, St.commit, hst]
          rename_i hr
          simp [St.beginShutdown, hn, St.commit, hst] at hr
        | some st'' =>
          obtain ⟨_, _, rfl⟩ := stage_some hst
          intro _
          simp [St.beginShutdown, hn, St.commit, hst]
      have := pending_winding hp w
      exact ⟨allOnDisk_of_clean hfin.2.1 hfin.2.2, (finish_quiet this.1 hw t).get⟩

/-- **C41 is violated** (finding F19): with a batch in flight, an acknowledged write that is not in the
batch is neither on disk nor staged, and the drop returns at once. The database drop that follows
closes the storage, so the write is lost. -/
theorem C41_violated_batch_in_flight :
    (exC.beginShutdown 7).2 = false ∧ (exC.beginShutdown 7).1.disk.get exKey = none ∧
    ((exC.beginShutdown 7).1.finish 8).shutdown = false ∧
    (((exC.beginShutdown 7).1.write exBatch).finish 8).disk.get exKey = some ⟨.bytes [1], none, 5⟩ ∧
    exC.get exKey = some ⟨.bytes [2], none, 6⟩ := by
  refine ⟨rfl, rfl, rfl, rfl, rfl⟩

/-- The partial theorem applies to a store with waiting writes: lazy persistence, one set, drop. -/
def exLazy : St Unit :=
  ((St.new (.lazy [⟨10, 1000⟩]) 0 .empty []).perform (exClock 5) ⟨exKey, .set (plainSet (.bytes [1]) none)⟩).2

unseal durationMax in
example : exLazy.persisting = none ∧ (exLazy.beginShutdown 6).2 = true ∧
    (((exLazy.beginShutdown 6).1.write (exLazy.dirty)).finish 7).shutdown = false ∧
    (((exLazy.beginShutdown 6).1.write (exLazy.dirty)).finish 7).disk.get exKey = some ⟨.bytes [1], none, 5⟩ := by
  refine ⟨rfl, rfl, rfl, rfl⟩

end Bonsai.KV
