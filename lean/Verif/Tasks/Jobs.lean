/-!
# C44: keyed background jobs

`crates/bonsaidb-local/src/tasks/manager.rs`, `tasks/manager/jobs.rs`, `tasks/manager/managed_job.rs`,
`tasks/handle.rs`.

`Jobs` is behind a lock; every step below holds it (`lookup`, `enqueue`, `complete`) or takes one job
from the queue (`start`).  Any number of worker threads run jobs.  A job may panic: nothing in the
code catches it, so its worker thread ends and `job_completed` is never called (user `map` and `reduce`
functions run inside jobs).  Result channels are numbered in the order they are created; `inbox` is
what has been sent into them.
-/
set_option linter.unusedSimpArgs false
set_option linter.unusedSectionVars false

namespace Bonsai.Jobs

variable {K R : Type} [DecidableEq K]

/-- `ManagedJob`, managed_job.rs:8-14 (the job itself is only known by its result). -/
structure Task (K : Type) where
  id : Nat
  key : Option K
  deriving DecidableEq

/-- `Jobs`, jobs.rs:13-19, the running jobs of the worker threads (manager.rs:71-75), and the contents
of the result channels. -/
structure St (K R : Type) where
  lastId : Nat
  senders : Nat → Option (List Nat)
  keyed : K → Option Nat
  queue : List (Task K)
  running : List (Task K)
  channels : Nat
  inbox : Nat → List R

/-- `Jobs::default`, jobs.rs:36-48. -/
def St.new : St K R := ⟨0, fun _ => none, fun _ => none, [], [], 0, fun _ => []⟩

/-- Change a function at one argument. -/
def put {A B : Type} [DecidableEq A] (f : A → B) (a : A) (b : B) : A → B := fun x => if x = a then b else f x

/-- `create_new_task_handle`, jobs.rs:78-87: the new channel is the returned handle. -/
def St.newHandle (st : St K R) (id : Nat) : St K R × Nat :=
  ({ st with senders := put st.senders id (some ((st.senders id).getD [] ++ [st.channels])),
             channels := st.channels + 1 }, st.channels)

/-- `enqueue`, jobs.rs:58-76: ids are `u64` and wrap. Returns the id and the handle's channel. -/
def St.enqueue (st : St K R) (key : Option K) : St K R × Nat × Nat :=
  let id := (st.lastId + 1) % 2 ^ 64
  let st := { st with lastId := id, queue := st.queue ++ [(⟨id, key⟩ : Task K)] }
  let r := st.newHandle id
  (r.1, id, r.2)

/-- `lookup_or_enqueue`, jobs.rs:89-102. -/
def St.lookup (st : St K R) (k : K) : St K R × Nat × Nat :=
  match st.keyed k with
  | some id => ((st.newHandle id).1, id, (st.newHandle id).2)
  | none =>
    let r := st.enqueue (some k)
    ({ r.1 with keyed := put r.1.keyed k (some r.2.1) }, r.2.1, r.2.2)

/-- The loop over the senders of a job, jobs.rs:104-124: a channel nobody listens to is ignored
(`drop(sender.send(..))`). -/
def sendAll (inbox : Nat → List R) (chs : List Nat) (r : R) : Nat → List R :=
  chs.foldl (fun f c => put f c (f c ++ [r])) inbox

/-- `job_completed`, jobs.rs:104-124. -/
def St.completed (st : St K R) (t : Task K) (r : R) : St K R :=
  let st := match t.key with
    | some k => { st with keyed := put st.keyed k none }
    | none => st
  match st.senders t.id with
  | some chs => { st with senders := put st.senders t.id none, inbox := sendAll st.inbox chs r }
  | none => st

/-- What happens: a caller gets the handle `ch` of the job `id` (`lookup_or_enqueue` with a key, or
`enqueue` without), a worker starts a job, a job ends with a result, a job panics. -/
inductive Event (K R : Type) where
  | lookup (k : K) (id ch : Nat)
  | enqueue (id ch : Nat)
  | start (id : Nat)
  | complete (id : Nat) (r : R)
  | panic (id : Nat)

inductive Step : St K R → Event K R → St K R → Prop where
  /-- manager.rs:40-46. -/
  | lookup (st : St K R) (k : K) :
      Step st (.lookup k (st.lookup k).2.1 (st.lookup k).2.2) (st.lookup k).1
  /-- manager.rs:32-35. -/
  | enqueue (st : St K R) : Step st (.enqueue (st.enqueue none).2.1 (st.enqueue none).2.2) (st.enqueue none).1
  /-- `receiver.recv()`, manager.rs:72: the queue is first in, first out. -/
  | start (st : St K R) (t : Task K) (q : List (Task K)) (hq : st.queue = t :: q) :
      Step st (.start t.id) { st with queue := q, running := st.running ++ [t] }
  /-- `ManagedJob::execute`, managed_job.rs:21-26. -/
  | complete (st : St K R) (t : Task K) (r : R) (pre post : List (Task K))
      (hr : st.running = pre ++ t :: post) :
      Step st (.complete t.id r) ({ st with running := pre ++ post }.completed t r)
  /-- `self.job.execute()` panics, managed_job.rs:22; the worker thread ends. -/
  | panic (st : St K R) (t : Task K) (pre post : List (Task K)) (hr : st.running = pre ++ t :: post) :
      Step st (.panic t.id) { st with running := pre ++ post }

inductive Run : St K R → List (Event K R) → St K R → Prop where
  | nil (st : St K R) : Run st [] st
  | snoc {st st' st'' : St K R} {evs : List (Event K R)} {e : Event K R} (h : Run st evs st')
      (s : Step st' e st'') : Run st (evs ++ [e]) st''

/-! ## Specification -/

/-- Jobs that are queued or running. -/
def St.active (st : St K R) : List (Task K) := st.queue ++ st.running

/-- The results with which a job ended. -/
def results (evs : List (Event K R)) (id : Nat) : List R :=
  evs.filterMap fun
    | .complete i r => if i = id then some r else none
    | _ => none

/-- The job panicked. -/
def Panicked (evs : List (Event K R)) (id : Nat) : Prop := Event.panic id ∈ evs

/-- The call that returned the handle `ch` returned it for job `id`. -/
def Joined (evs : List (Event K R)) (id ch : Nat) : Prop :=
  (∃ k, Event.lookup k id ch ∈ evs) ∨ Event.enqueue id ch ∈ evs

/-! ## The invariant -/

/-- Number of jobs created: each event creates at most one. -/
structure Inv (evs : List (Event K R)) (st : St K R) : Prop where
  small : st.lastId ≤ evs.length
  ids : (st.active.map (·.id)).Nodup
  idBound : ∀ t ∈ st.active, t.id ≤ st.lastId ∧ 0 < t.id
  senderBound : ∀ id chs, st.senders id = some chs → id ≤ st.lastId ∧ (∀ c ∈ chs, c < st.channels)
  keyed : ∀ t ∈ st.active, ∀ k, t.key = some k → st.keyed k = some t.id
  keyedBound : ∀ k id, st.keyed k = some id → id ≤ st.lastId
  /-- a keyed id belongs to an active job with that key, or to one that panicked -/
  keyedActive : ∀ k id, st.keyed k = some id →
    (⟨id, some k⟩ ∈ st.active ∨ Panicked evs id) ∧ ∃ ch, Event.lookup k id ch ∈ evs
  /-- channels of one job are distinct and belong to that job only -/
  chans : ∀ id chs, st.senders id = some chs → chs.Nodup ∧ ∀ c ∈ chs, Joined evs id c ∧ st.inbox c = []
  disjoint : ∀ i j ci cj c, st.senders i = some ci → st.senders j = some cj → c ∈ ci → c ∈ cj → i = j
  joinedBound : ∀ id ch, Joined evs id ch → ch < st.channels ∧ id ≤ st.lastId
  joinedUnique : ∀ i j ch, Joined evs i ch → Joined evs j ch → i = j
  fresh : ∀ c, st.channels ≤ c → st.inbox c = []
  /-- a handle is waiting for its job, or has its result -/
  waiting : ∀ id ch, Joined evs id ch →
    ((∃ chs, st.senders id = some chs ∧ ch ∈ chs) ∧
        ((∃ t ∈ st.active, t.id = id) ∨ Panicked evs id) ∧ results evs id = [] ∧ st.inbox ch = []) ∨
      (∃ r, results evs id = [r] ∧ st.inbox ch = [r] ∧ st.senders id = none ∧
        (∀ t ∈ st.active, t.id ≠ id) ∧ ¬ Panicked evs id)
  /-- a job that is queued or running has not ended -/
  open_ : ∀ t ∈ st.active, results evs t.id = [] ∧ ¬ Panicked evs t.id ∧ ∃ ch, Joined evs t.id ch
  unborn : ∀ id, st.lastId < id → results evs id = [] ∧ ¬ Panicked evs id
  panickedBound : ∀ id, Panicked evs id → results evs id = [] ∧ ∀ t ∈ st.active, t.id ≠ id

theorem put_self {A B : Type} [DecidableEq A] (f : A → B) (a : A) (b : B) : put f a b a = b := by
  simp [put]

theorem put_ne {A B : Type} [DecidableEq A] (f : A → B) {a x : A} (b : B) (h : x ≠ a) :
    put f a b x = f x := by simp [put, h]

theorem results_append (evs : List (Event K R)) (e : Event K R) (id : Nat) :
    results (evs ++ [e]) id = results evs id ++ results [e] id := by
  simp [results, List.filterMap_append]

theorem inv_new : Inv ([] : List (Event K R)) (St.new : St K R) := by
  constructor <;> simp [St.new, St.active, results, Panicked, Joined]

theorem sendAll_other {inbox : Nat → List R} {chs : List Nat} {r : R} {c : Nat} (h : c ∉ chs) :
    sendAll inbox chs r c = inbox c := by
  unfold sendAll
  induction chs generalizing inbox with
  | nil => rfl
  | cons x xs ih =>
    simp only [List.mem_cons, not_or] at h
    simp only [List.foldl_cons]
    rw [ih h.2, put_ne _ _ h.1]

theorem sendAll_mem {inbox : Nat → List R} {chs : List Nat} {r : R} {c : Nat} (h : c ∈ chs)
    (hn : chs.Nodup) : sendAll inbox chs r c = inbox c ++ [r] := by
  unfold sendAll
  induction chs generalizing inbox with
  | nil => simp at h
  | cons x xs ih =>
    simp only [List.nodup_cons] at hn
    simp only [List.foldl_cons]
    by_cases hx : c = x
    · subst hx
      have := sendAll_other (inbox := put inbox c (inbox c ++ [r])) (r := r) hn.1
      unfold sendAll at this
      rw [this, put_self]
    · have hm : c ∈ xs := by simpa [hx] using h
      rw [ih hm hn.2, put_ne _ _ hx]

/-- The event hands out the handle `ch` of job `id`. -/
def Hands (e : Event K R) (id ch : Nat) : Prop := (∃ k, e = .lookup k id ch) ∨ e = .enqueue id ch

theorem joined_append {evs : List (Event K R)} {e : Event K R} {id ch : Nat} (he : Hands e id ch)
    {i c : Nat} : Joined (evs ++ [e]) i c ↔ Joined evs i c ∨ (i = id ∧ c = ch) := by
  unfold Joined
  rcases he with ⟨k, rfl⟩ | rfl
  · simp only [List.mem_append, List.mem_singleton, Event.lookup.injEq, reduceCtorEq, or_false]
    constructor
    · rintro (⟨k', h | ⟨rfl, rfl, rfl⟩⟩ | h)
      · exact .inl (.inl ⟨k', h⟩)
      · exact .inr ⟨rfl, rfl⟩
      · exact .inl (.inr h)
    · rintro ((⟨k', h⟩ | h) | ⟨rfl, rfl⟩)
      · exact .inl ⟨k', .inl h⟩
      · exact .inr h
      · exact .inl ⟨k, .inr ⟨rfl, rfl, rfl⟩⟩
  · simp only [List.mem_append, List.mem_singleton, Event.enqueue.injEq, reduceCtorEq, or_false]
    constructor
    · rintro (h | h | ⟨rfl, rfl⟩)
      · exact .inl (.inl h)
      · exact .inl (.inr h)
      · exact .inr ⟨rfl, rfl⟩
    · rintro ((h | h) | ⟨rfl, rfl⟩)
      · exact .inl h
      · exact .inr (.inl h)
      · exact .inr (.inr ⟨rfl, rfl⟩)

theorem hands_results {evs : List (Event K R)} {e : Event K R} {id ch : Nat} (he : Hands e id ch)
    (i : Nat) : results (evs ++ [e]) i = results evs i := by
  rw [results_append]
  rcases he with ⟨k, rfl⟩ | rfl <;> simp [results]

theorem hands_panicked {evs : List (Event K R)} {e : Event K R} {id ch : Nat} (he : Hands e id ch)
    (i : Nat) : Panicked (evs ++ [e]) i ↔ Panicked evs i := by
  unfold Panicked
  rcases he with ⟨k, rfl⟩ | rfl <;> simp

/-- Joining an existing job. -/
theorem inv_join {evs : List (Event K R)} {st : St K R} {e : Event K R} {id : Nat}
    (h : Inv evs st) (he : Hands e id st.channels) {chs : List Nat}
    (hs : st.senders id = some chs) (ha : (∃ t ∈ st.active, t.id = id) ∨ Panicked evs id)
    (hr : results evs id = []) : Inv (evs ++ [e]) (st.newHandle id).1 := by
  have hj := fun {i c} => joined_append (evs := evs) he (i := i) (c := c)
  have hres := hands_results (evs := evs) he
  have hpan := hands_panicked (evs := evs) he
  have hnew : ∀ c ∈ chs, c < st.channels := (h.senderBound id chs hs).2
  have hsend : ∀ i l, (st.newHandle id).1.senders i = some l →
      (i = id ∧ l = chs ++ [st.channels]) ∨ (i ≠ id ∧ st.senders i = some l) := by
    intro i l hl
    simp only [St.newHandle] at hl
    by_cases hi : i = id
    · subst hi; rw [put_self, hs] at hl; simp at hl; exact .inl ⟨rfl, hl.symm⟩
    · rw [put_ne _ _ hi] at hl; exact .inr ⟨hi, hl⟩
  constructor
  · show st.lastId ≤ (evs ++ [e]).length
    simp; have := h.small; omega
  · exact h.ids
  · exact h.idBound
  · intro i l hl
    show i ≤ st.lastId ∧ ∀ c ∈ l, c < st.channels + 1
    rcases hsend i l hl with ⟨rfl, rfl⟩ | ⟨_, hl⟩
    · refine ⟨(h.senderBound i chs hs).1, ?_⟩
      intro c hc
      simp only [List.mem_append, List.mem_singleton] at hc
      rcases hc with hc | rfl
      · have := hnew c hc; omega
      · omega
    · obtain ⟨a, b⟩ := h.senderBound i l hl
      exact ⟨a, fun c hc => by have := b c hc; omega⟩
  · exact h.keyed
  · exact h.keyedBound
  · intro k i hk
    obtain ⟨a, ch, b⟩ := h.keyedActive k i hk
    exact ⟨a.imp_right (hpan i).mpr, ch, by simp [b]⟩
  · intro i l hl
    show l.Nodup ∧ ∀ c ∈ l, Joined (evs ++ [e]) i c ∧ st.inbox c = []
    rcases hsend i l hl with ⟨rfl, rfl⟩ | ⟨_, hl⟩
    · obtain ⟨a, b⟩ := h.chans i chs hs
      refine ⟨?_, ?_⟩
      · rw [List.nodup_append]
        refine ⟨a, by simp, ?_⟩
        intro x hx y hy
        simp only [List.mem_singleton] at hy
        subst hy
        have := hnew x hx
        omega
      · intro c hc
        simp only [List.mem_append, List.mem_singleton] at hc
        rcases hc with hc | rfl
        · exact ⟨hj.mpr (.inl (b c hc).1), (b c hc).2⟩
        · exact ⟨hj.mpr (.inr ⟨rfl, rfl⟩), h.fresh _ (Nat.le_refl _)⟩
    · obtain ⟨a, b⟩ := h.chans i l hl
      exact ⟨a, fun c hc => ⟨hj.mpr (.inl (b c hc).1), (b c hc).2⟩⟩
  · intro i j ci cj c hi hj' hci hcj
    rcases hsend i ci hi with ⟨rfl, rfl⟩ | ⟨hi1, hi2⟩ <;> rcases hsend j cj hj' with ⟨rfl, rfl⟩ | ⟨hj1, hj2⟩
    · rfl
    · simp only [List.mem_append, List.mem_singleton] at hci
      rcases hci with hc | rfl
      · exact h.disjoint i j chs cj c hs hj2 hc hcj
      · have := (h.senderBound j cj hj2).2 _ hcj; omega
    · simp only [List.mem_append, List.mem_singleton] at hcj
      rcases hcj with hc | rfl
      · exact h.disjoint i j ci chs c hi2 hs hci hc
      · have := (h.senderBound i ci hi2).2 _ hci; omega
    · exact h.disjoint i j ci cj c hi2 hj2 hci hcj
  · intro i c hc
    show c < st.channels + 1 ∧ i ≤ st.lastId
    rcases hj.mp hc with hc | ⟨rfl, rfl⟩
    · have := h.joinedBound i c hc; omega
    · have := (h.senderBound i chs hs).1; omega
  · intro i j c hi hj'
    rcases hj.mp hi with hi | ⟨rfl, rfl⟩ <;> rcases hj.mp hj' with hj' | ⟨rfl, hc⟩
    · exact h.joinedUnique i j c hi hj'
    · have := (h.joinedBound i c hi).1; omega
    · have := (h.joinedBound j _ hj').1; omega
    · rfl
  · intro c hc
    exact h.fresh c (by simp only [St.newHandle] at hc; omega)
  · intro i c hc
    rw [hres]
    show ((∃ l, (st.newHandle id).1.senders i = some l ∧ c ∈ l) ∧ _ ∧ _ ∧ st.inbox c = []) ∨ _
    rcases hj.mp hc with hc | ⟨rfl, rfl⟩
    · rcases h.waiting i c hc with ⟨⟨l, hl, hm⟩, a, b, d⟩ | ⟨r, a, b, d, f, g⟩
      · refine .inl ⟨?_, a.imp_right (hpan i).mpr, b, d⟩
        by_cases hi : i = id
        · subst hi
          rw [hs] at hl; cases hl
          exact ⟨chs ++ [st.channels], by simp [St.newHandle, put_self, hs], by simp [hm]⟩
        · exact ⟨l, by simp only [St.newHandle]; rw [put_ne _ _ hi]; exact hl, hm⟩
      · refine .inr ⟨r, a, b, ?_, f, fun hp => g ((hpan i).mp hp)⟩
        have hi : i ≠ id := by rintro rfl; rw [hr] at a; cases a
        simp only [St.newHandle]; rw [put_ne _ _ hi]; exact d
    · exact .inl ⟨⟨chs ++ [st.channels], by simp [St.newHandle, put_self, hs], by simp⟩,
        ha.imp_right (hpan i).mpr, hr, h.fresh _ (Nat.le_refl _)⟩
  · intro t ht
    obtain ⟨a, b, c, d⟩ := h.open_ t ht
    exact ⟨by rw [hres]; exact a, fun hp => b ((hpan _).mp hp), c, hj.mpr (.inl d)⟩
  · intro i hi
    obtain ⟨a, b⟩ := h.unborn i hi
    exact ⟨by rw [hres]; exact a, fun hp => b ((hpan _).mp hp)⟩
  · intro i hi
    obtain ⟨a, b⟩ := h.panickedBound i ((hpan i).mp hi)
    exact ⟨by rw [hres]; exact a, b⟩

/-- A new job. -/
theorem inv_enqueue {evs : List (Event K R)} {st : St K R} {e : Event K R} {key : Option K}
    (h : Inv evs st) (hlen : evs.length + 1 < 2 ^ 64) (he : Hands e (st.lastId + 1) st.channels)
    (hkey : ∀ k, key = some k → st.keyed k = none ∧ e = .lookup k (st.lastId + 1) st.channels)
    (kd : K → Option Nat)
    (hkd : kd = match key with
      | some k => put st.keyed k (some (st.lastId + 1))
      | none => st.keyed) :
    Inv (evs ++ [e]) { (st.enqueue key).1 with keyed := kd } := by
  have hj := fun {i c} => joined_append (evs := evs) he (i := i) (c := c)
  have hres := hands_results (evs := evs) he
  have hpan := hands_panicked (evs := evs) he
  have hmod : (st.lastId + 1) % 2 ^ 64 = st.lastId + 1 := by
    have := h.small
    exact Nat.mod_eq_of_lt (by omega)
  have hno : st.senders (st.lastId + 1) = none := by
    cases hs : st.senders (st.lastId + 1) with
    | none => rfl
    | some l => have := (h.senderBound _ _ hs).1; omega
  have hst : (st.enqueue key).1 = { st with
      lastId := st.lastId + 1
      queue := st.queue ++ [⟨st.lastId + 1, key⟩]
      senders := put st.senders (st.lastId + 1) (some [st.channels])
      channels := st.channels + 1 } := by
    simp only [St.enqueue, hmod, St.newHandle, hno, Option.getD_none, List.nil_append]
  rw [hst]
  have hact : ∀ t, t ∈ ({ st with
      lastId := st.lastId + 1
      queue := st.queue ++ [⟨st.lastId + 1, key⟩]
      senders := put st.senders (st.lastId + 1) (some [st.channels])
      keyed := kd
      channels := st.channels + 1 } : St K R).active ↔ t ∈ st.active ∨ t = ⟨st.lastId + 1, key⟩ := by
    intro t
    simp only [St.active, List.mem_append, List.mem_singleton]
    constructor
    · rintro ((a | a) | a) <;> simp [a]
    · rintro ((a | a) | a) <;> simp [a]
  have hsend : ∀ i l, put st.senders (st.lastId + 1) (some [st.channels]) i = some l →
      (i = st.lastId + 1 ∧ l = [st.channels]) ∨ (i ≠ st.lastId + 1 ∧ st.senders i = some l) := by
    intro i l hl
    by_cases hi : i = st.lastId + 1
    · subst hi; rw [put_self] at hl; cases hl; exact .inl ⟨rfl, rfl⟩
    · rw [put_ne _ _ hi] at hl; exact .inr ⟨hi, hl⟩
  have hkeq : ∀ k, kd k = if key = some k then some (st.lastId + 1) else st.keyed k := by
    intro k
    rw [hkd]
    cases key with
    | none => simp
    | some k' =>
      by_cases hk : k = k'
      · subst hk; simp [put_self]
      · have : k' ≠ k := fun e => hk e.symm
        simp [put_ne _ _ hk, this]
  have hub := h.unborn (st.lastId + 1) (by omega)
  constructor
  · show st.lastId + 1 ≤ (evs ++ [e]).length
    simp; have := h.small; omega
  · have h1 := h.ids
    have hp : (({ st with
        lastId := st.lastId + 1
        queue := st.queue ++ [⟨st.lastId + 1, key⟩]
        senders := put st.senders (st.lastId + 1) (some [st.channels])
        keyed := kd
        channels := st.channels + 1 } : St K R).active.map (·.id)).Perm
        ((st.lastId + 1) :: st.active.map (·.id)) := by
      simp only [St.active, List.map_append, List.map_cons, List.map_nil, List.append_assoc,
        List.singleton_append]
      exact List.perm_middle
    rw [hp.nodup_iff, List.nodup_cons]
    refine ⟨?_, h1⟩
    intro hm
    obtain ⟨t, ht, hi⟩ := List.mem_map.mp hm
    have := (h.idBound t ht).1
    omega
  · intro t ht
    show t.id ≤ st.lastId + 1 ∧ 0 < t.id
    rcases (hact t).mp ht with ht | rfl
    · have := h.idBound t ht; omega
    · simp
  · intro i l hl
    show i ≤ st.lastId + 1 ∧ ∀ c ∈ l, c < st.channels + 1
    rcases hsend i l hl with ⟨rfl, rfl⟩ | ⟨_, hl⟩
    · simp
    · obtain ⟨a, b⟩ := h.senderBound i l hl
      exact ⟨by omega, fun c hc => by have := b c hc; omega⟩
  · intro t ht k hk
    show kd k = some t.id
    rw [hkeq]
    rcases (hact t).mp ht with ht | rfl
    · have hk' := h.keyed t ht k hk
      split
      · rename_i hkk
        rw [(hkey k hkk).1] at hk'; cases hk'
      · exact hk'
    · simp only at hk
      simp [hk]
  · intro k i hk
    show i ≤ st.lastId + 1
    replace hk : kd k = some i := hk
    rw [hkeq] at hk
    split at hk
    · cases hk; exact Nat.le_refl _
    · have := h.keyedBound k i hk; omega
  · intro k i hk
    replace hk : kd k = some i := hk
    rw [hkeq] at hk
    split at hk
    · rename_i hkk
      cases hk
      exact ⟨.inl ((hact _).mpr (.inr (by rw [hkk]))), st.channels, by simp [(hkey k hkk).2]⟩
    · obtain ⟨a, ch, b⟩ := h.keyedActive k i hk
      refine ⟨?_, ch, by simp [b]⟩
      rcases a with a | a
      · exact .inl ((hact _).mpr (.inl a))
      · exact .inr ((hpan i).mpr a)
  · intro i l hl
    show l.Nodup ∧ ∀ c ∈ l, Joined (evs ++ [e]) i c ∧ st.inbox c = []
    rcases hsend i l hl with ⟨rfl, rfl⟩ | ⟨_, hl⟩
    · refine ⟨by simp, ?_⟩
      intro c hc
      simp only [List.mem_singleton] at hc
      subst hc
      exact ⟨hj.mpr (.inr ⟨rfl, rfl⟩), h.fresh _ (Nat.le_refl _)⟩
    · obtain ⟨a, b⟩ := h.chans i l hl
      exact ⟨a, fun c hc => ⟨hj.mpr (.inl (b c hc).1), (b c hc).2⟩⟩
  · intro i j ci cj c hi hj' hci hcj
    rcases hsend i ci hi with ⟨rfl, rfl⟩ | ⟨hi1, hi2⟩ <;> rcases hsend j cj hj' with ⟨rfl, rfl⟩ | ⟨hj1, hj2⟩
    · rfl
    · simp only [List.mem_singleton] at hci
      subst hci
      have := (h.senderBound j cj hj2).2 _ hcj; omega
    · simp only [List.mem_singleton] at hcj
      subst hcj
      have := (h.senderBound i ci hi2).2 _ hci; omega
    · exact h.disjoint i j ci cj c hi2 hj2 hci hcj
  · intro i c hc
    show c < st.channels + 1 ∧ i ≤ st.lastId + 1
    rcases hj.mp hc with hc | ⟨rfl, rfl⟩
    · have := h.joinedBound i c hc; omega
    · omega
  · intro i j c hi hj'
    rcases hj.mp hi with hi | ⟨rfl, rfl⟩ <;> rcases hj.mp hj' with hj' | ⟨rfl, hc⟩
    · exact h.joinedUnique i j c hi hj'
    · have := (h.joinedBound i c hi).1; omega
    · have := (h.joinedBound j _ hj').1; omega
    · rfl
  · intro c hc
    exact h.fresh c (by replace hc : st.channels + 1 ≤ c := hc; omega)
  · intro i c hc
    rw [hres]
    show ((∃ l, put st.senders (st.lastId + 1) (some [st.channels]) i = some l ∧ c ∈ l) ∧ _ ∧ _ ∧
      st.inbox c = []) ∨ ∃ r, _ ∧ st.inbox c = [r] ∧
        put st.senders (st.lastId + 1) (some [st.channels]) i = none ∧ _ ∧ _
    rcases hj.mp hc with hc | ⟨rfl, rfl⟩
    · have hi : i ≠ st.lastId + 1 := by have := (h.joinedBound i c hc).2; omega
      rw [put_ne _ _ hi]
      rcases h.waiting i c hc with ⟨⟨l, hl, hm⟩, a, b, d⟩ | ⟨r, a, b, d, f, g⟩
      · refine .inl ⟨⟨l, hl, hm⟩, ?_, b, d⟩
        rcases a with ⟨t, ht, hi⟩ | a
        · exact .inl ⟨t, (hact t).mpr (.inl ht), hi⟩
        · exact .inr ((hpan i).mpr a)
      · refine .inr ⟨r, a, b, d, ?_, fun hp => g ((hpan i).mp hp)⟩
        intro t ht
        rcases (hact t).mp ht with ht | rfl
        · exact f t ht
        · exact fun e => hi e.symm
    · refine .inl ⟨⟨[st.channels], put_self _ _ _, by simp⟩,
        .inl ⟨_, (hact _).mpr (.inr rfl), rfl⟩, hub.1, h.fresh _ (Nat.le_refl _)⟩
  · intro t ht
    rw [hres, hpan]
    rcases (hact t).mp ht with ht | rfl
    · obtain ⟨a, b, c, d⟩ := h.open_ t ht
      exact ⟨a, b, c, hj.mpr (.inl d)⟩
    · exact ⟨hub.1, hub.2, st.channels, hj.mpr (.inr ⟨rfl, rfl⟩)⟩
  · intro i hi
    replace hi : st.lastId + 1 < i := hi
    rw [hres, hpan]
    exact h.unborn i (by omega)
  · intro i hi
    rw [hpan] at hi
    obtain ⟨a, b⟩ := h.panickedBound i hi
    refine ⟨by rw [hres]; exact a, ?_⟩
    intro t ht
    rcases (hact t).mp ht with ht | rfl
    · exact b t ht
    · intro e
      exact hub.2 (by rw [← e] at hi; exact hi)

/-- The event neither hands out a handle, ends a job, nor panics. -/
theorem inv_step {evs : List (Event K R)} {st st' : St K R} {e : Event K R} (h : Inv evs st)
    (hlen : evs.length + 1 < 2 ^ 64) (hs : Step st e st') : Inv (evs ++ [e]) st' := by
  cases hs with
  | lookup k =>
    cases hk : st.keyed k with
    | some id =>
      have e1 : st.lookup k = ((st.newHandle id).1, id, st.channels) := by
        simp only [St.lookup, hk]; rfl
      rw [e1]
      obtain ⟨ha, ch, hl⟩ := h.keyedActive k id hk
      have hj : Joined evs id ch := .inl ⟨k, hl⟩
      have ha' : (∃ t ∈ st.active, t.id = id) ∨ Panicked evs id :=
        ha.imp_left fun x => ⟨_, x, rfl⟩
      rcases h.waiting id ch hj with ⟨⟨l, hl, _⟩, _, b, _⟩ | ⟨r, _, _, _, f, g⟩
      · exact inv_join h (.inl ⟨k, rfl⟩) hl ha' b
      · rcases ha' with ⟨t, ht, hi⟩ | hp
        · exact absurd hi (f t ht)
        · exact absurd hp g
    | none =>
      have hmod : (st.lastId + 1) % 2 ^ 64 = st.lastId + 1 := by
        have := h.small
        exact Nat.mod_eq_of_lt (by omega)
      have e1 : st.lookup k = ({ (st.enqueue (some k)).1 with
          keyed := put st.keyed k (some (st.lastId + 1)) }, st.lastId + 1, st.channels) := by
        simp only [St.lookup, hk, St.enqueue, hmod, St.newHandle]
      rw [e1]
      exact inv_enqueue h hlen (.inl ⟨k, rfl⟩) (by rintro k' ⟨⟩; exact ⟨hk, rfl⟩) _ rfl
  | enqueue =>
    have hmod : (st.lastId + 1) % 2 ^ 64 = st.lastId + 1 := by
      have := h.small
      exact Nat.mod_eq_of_lt (by omega)
    have e1 : (st.enqueue none).2 = (st.lastId + 1, st.channels) := by
      simp only [St.enqueue, hmod, St.newHandle]
    have e2 : (st.enqueue none).1.keyed = st.keyed := rfl
    rw [e1]
    have := inv_enqueue (e := .enqueue (st.lastId + 1) st.channels) (key := none) h hlen (.inr rfl)
      (by simp) st.keyed rfl
    exact this
  | start t q hq =>
    have hact : ∀ x, x ∈ ({ st with queue := q, running := st.running ++ [t] } : St K R).active ↔
        x ∈ st.active := by
      intro x
      simp only [St.active, hq, List.mem_append, List.mem_cons, List.not_mem_nil, or_false]
      constructor
      · rintro (a | a | a) <;> simp [a]
      · rintro ((a | a) | a) <;> simp [a]
    have hj : ∀ i c, Joined (evs ++ [.start t.id]) i c ↔ Joined evs i c := by
      intro i c; simp [Joined]
    have hres : ∀ i, results (evs ++ [(.start t.id : Event K R)]) i = results evs i := by
      intro i; rw [results_append]; simp [results]
    have hpan : ∀ i, Panicked (evs ++ [(.start t.id : Event K R)]) i ↔ Panicked evs i := by
      intro i; simp [Panicked]
    constructor
    · simp; have := h.small; omega
    · have hp : (({ st with queue := q, running := st.running ++ [t] } : St K R).active.map (·.id)).Perm
          (st.active.map (·.id)) := by
        apply List.Perm.map
        simp only [St.active, hq]
        rw [← List.append_assoc]
        exact List.perm_append_comm
      rw [hp.nodup_iff]; exact h.ids
    · intro x hx; exact h.idBound x ((hact x).mp hx)
    · exact h.senderBound
    · intro x hx; exact h.keyed x ((hact x).mp hx)
    · exact h.keyedBound
    · intro k i hk
      obtain ⟨a, ch, b⟩ := h.keyedActive k i hk
      exact ⟨a.imp (hact _).mpr (hpan i).mpr, ch, by simp [b]⟩
    · intro i l hl
      obtain ⟨a, b⟩ := h.chans i l hl
      exact ⟨a, fun c hc => ⟨(hj i c).mpr (b c hc).1, (b c hc).2⟩⟩
    · exact h.disjoint
    · intro i c hc; exact h.joinedBound i c ((hj i c).mp hc)
    · intro i j c hi hj'; exact h.joinedUnique i j c ((hj i c).mp hi) ((hj j c).mp hj')
    · exact h.fresh
    · intro i c hc
      rw [hres, hpan]
      rcases h.waiting i c ((hj i c).mp hc) with ⟨a, b, d⟩ | ⟨r, a, b, d, f, g⟩
      · exact .inl ⟨a, b.imp_left fun ⟨x, hx, hi⟩ => ⟨x, (hact x).mpr hx, hi⟩, d⟩
      · exact .inr ⟨r, a, b, d, fun x hx => f x ((hact x).mp hx), g⟩
    · intro x hx
      obtain ⟨a, b, c, d⟩ := h.open_ x ((hact x).mp hx)
      exact ⟨by rw [hres]; exact a, by rw [hpan]; exact b, c, (hj _ _).mpr d⟩
    · intro i hi; rw [hres, hpan]; exact h.unborn i hi
    · intro i hi
      rw [hpan] at hi
      obtain ⟨a, b⟩ := h.panickedBound i hi
      exact ⟨by rw [hres]; exact a, fun x hx => b x ((hact x).mp hx)⟩
  | panic t pre post hr =>
    have hperm : st.active.Perm (t :: ({ st with running := pre ++ post } : St K R).active) := by
      simp only [St.active, hr]
      rw [← List.append_assoc]
      refine List.perm_middle.trans ?_
      rw [List.append_assoc]
    have ht : t ∈ st.active := hperm.mem_iff.mpr (by simp)
    have hsub : ∀ x, x ∈ ({ st with running := pre ++ post } : St K R).active → x ∈ st.active :=
      fun x hx => hperm.mem_iff.mpr (by simp [hx])
    have hids : (t.id :: ({ st with running := pre ++ post } : St K R).active.map (·.id)).Nodup := by
      have := (hperm.map (·.id)).nodup_iff.mp h.ids
      simpa using this
    have hne : ∀ x ∈ ({ st with running := pre ++ post } : St K R).active, x.id ≠ t.id := by
      intro x hx e
      rw [List.nodup_cons] at hids
      exact hids.1 (List.mem_map.mpr ⟨x, hx, e⟩)
    have hj : ∀ i c, Joined (evs ++ [.panic t.id]) i c ↔ Joined evs i c := by
      intro i c; simp [Joined]
    have hres : ∀ i, results (evs ++ [(.panic t.id : Event K R)]) i = results evs i := by
      intro i; rw [results_append]; simp [results]
    have hpan : ∀ i, Panicked (evs ++ [(.panic t.id : Event K R)]) i ↔ Panicked evs i ∨ i = t.id := by
      intro i; simp [Panicked]
    obtain ⟨hopen1, hopen2, _⟩ := h.open_ t ht
    constructor
    · simp; have := h.small; omega
    · exact (List.nodup_cons.mp hids).2
    · intro x hx; exact h.idBound x (hsub x hx)
    · exact h.senderBound
    · intro x hx; exact h.keyed x (hsub x hx)
    · exact h.keyedBound
    · intro k i hk
      obtain ⟨a, ch, b⟩ := h.keyedActive k i hk
      refine ⟨?_, ch, by simp [b]⟩
      rw [hpan]
      rcases a with a | a
      · have := hperm.mem_iff.mp a
        simp only [List.mem_cons] at this
        rcases this with e | e
        · exact .inr (.inr (by rw [← e]))
        · exact .inl e
      · exact .inr (.inl a)
    · intro i l hl
      obtain ⟨a, b⟩ := h.chans i l hl
      exact ⟨a, fun c hc => ⟨(hj i c).mpr (b c hc).1, (b c hc).2⟩⟩
    · exact h.disjoint
    · intro i c hc; exact h.joinedBound i c ((hj i c).mp hc)
    · intro i j c hi hj'; exact h.joinedUnique i j c ((hj i c).mp hi) ((hj j c).mp hj')
    · exact h.fresh
    · intro i c hc
      rw [hres, hpan]
      rcases h.waiting i c ((hj i c).mp hc) with ⟨a, b, d⟩ | ⟨r, a, b, d, f, g⟩
      · refine .inl ⟨a, ?_, d⟩
        rcases b with ⟨x, hx, hi⟩ | b
        · have := hperm.mem_iff.mp hx
          simp only [List.mem_cons] at this
          rcases this with e | e
          · exact .inr (.inr (by rw [← hi, e]))
          · exact .inl ⟨x, e, hi⟩
        · exact .inr (.inl b)
      · refine .inr ⟨r, a, b, d, fun x hx => f x (hsub x hx), ?_⟩
        rintro (hp | rfl)
        · exact g hp
        · exact f t ht rfl
    · intro x hx
      obtain ⟨a, b, c, d⟩ := h.open_ x (hsub x hx)
      refine ⟨by rw [hres]; exact a, ?_, c, (hj _ _).mpr d⟩
      rw [hpan]
      rintro (hp | e)
      · exact b hp
      · exact hne x hx e
    · intro i hi
      rw [hres, hpan]
      obtain ⟨a, b⟩ := h.unborn i hi
      refine ⟨a, ?_⟩
      rintro (hp | rfl)
      · exact b hp
      · have := (h.idBound t ht).1
        replace hi : st.lastId < t.id := hi
        omega
    · intro i hi
      rw [hpan] at hi
      rw [hres]
      rcases hi with hi | rfl
      · obtain ⟨a, b⟩ := h.panickedBound i hi
        exact ⟨a, fun x hx => b x (hsub x hx)⟩
      · exact ⟨hopen1, hne⟩
  | complete t r pre post hr =>
    have hperm : st.active.Perm (t :: ({ st with running := pre ++ post } : St K R).active) := by
      simp only [St.active, hr]
      rw [← List.append_assoc]
      refine List.perm_middle.trans ?_
      rw [List.append_assoc]
    have ht : t ∈ st.active := hperm.mem_iff.mpr (by simp)
    have hids : (t.id :: ({ st with running := pre ++ post } : St K R).active.map (·.id)).Nodup := by
      have := (hperm.map (·.id)).nodup_iff.mp h.ids
      simpa using this
    obtain ⟨ho1, ho2, ch0, ho3⟩ := h.open_ t ht
    obtain ⟨chs, hchs, _⟩ : ∃ chs, st.senders t.id = some chs ∧ ch0 ∈ chs := by
      rcases h.waiting t.id ch0 ho3 with ⟨a, _⟩ | ⟨_, _, _, _, f, _⟩
      · exact a
      · exact absurd rfl (f t ht)
    let kd : K → Option Nat := match t.key with
      | some k => put st.keyed k none
      | none => st.keyed
    have hst : ({ st with running := pre ++ post } : St K R).completed t r = { st with
        running := pre ++ post, keyed := kd, senders := put st.senders t.id none,
        inbox := sendAll st.inbox chs r } := by
      unfold St.completed
      cases hk : t.key with
      | none => simp only [hchs, kd, hk]
      | some k => simp only [hchs, kd, hk]
    rw [hst]
    have hact : ({ st with running := pre ++ post, keyed := kd, senders := put st.senders t.id none, inbox := sendAll st.inbox chs r } : St K R).active = ({ st with running := pre ++ post } : St K R).active := rfl
    have hsub : ∀ x, x ∈ ({ st with running := pre ++ post } : St K R).active → x ∈ st.active :=
      fun x hx => hperm.mem_iff.mpr (by simp [hx])
    have hne : ∀ x ∈ ({ st with running := pre ++ post } : St K R).active, x.id ≠ t.id := by
      intro x hx e
      rw [List.nodup_cons] at hids
      exact hids.1 (List.mem_map.mpr ⟨x, hx, e⟩)
    have hj : ∀ i c, Joined (evs ++ [.complete t.id r]) i c ↔ Joined evs i c := by
      intro i c; simp [Joined]
    have hres : ∀ i, results (evs ++ [(.complete t.id r : Event K R)]) i =
        results evs i ++ if t.id = i then [r] else [] := by
      intro i; rw [results_append]
      by_cases hi : t.id = i <;> simp [results, hi]
    have hpan : ∀ i, Panicked (evs ++ [(.complete t.id r : Event K R)]) i ↔ Panicked evs i := by
      intro i; simp [Panicked]
    have hkeq : ∀ k, kd k = if t.key = some k then none else st.keyed k := by
      intro k
      simp only [kd]
      cases t.key with
      | none => simp
      | some k' =>
        by_cases hk : k = k'
        · subst hk; simp [put_self]
        · have : k' ≠ k := fun e => hk e.symm
          simp [put_ne _ _ hk, this]
    have hkd : ∀ k i, kd k = some i → st.keyed k = some i ∧ i ≠ t.id := by
      intro k i hk
      rw [hkeq] at hk
      have key : ∀ k i, st.keyed k = some i → t.key ≠ some k → i ≠ t.id := by
        intro k i hk hnk e
        subst e
        obtain ⟨a, _⟩ := h.keyedActive k _ hk
        rcases a with a | a
        · have : (⟨t.id, some k⟩ : Task K) = t := by
            have := hperm.mem_iff.mp a
            simp only [List.mem_cons] at this
            rcases this with e | e
            · exact e
            · exact absurd (rfl : (⟨t.id, some k⟩ : Task K).id = t.id) (hne _ e)
          exact hnk (by rw [← this])
        · exact ho2 a
      split at hk
      · cases hk
      · rename_i hk'
        exact ⟨hk, key k i hk hk'⟩
    have hsend : ∀ i l, put st.senders t.id none i = some l → i ≠ t.id ∧ st.senders i = some l := by
      intro i l hl
      by_cases hi : i = t.id
      · subst hi; rw [put_self] at hl; cases hl
      · rw [put_ne _ _ hi] at hl; exact ⟨hi, hl⟩
    have hother : ∀ i c, Joined evs i c → i ≠ t.id → sendAll st.inbox chs r c = st.inbox c := by
      intro i c hc hi
      apply sendAll_other
      intro hm
      exact hi (h.joinedUnique i t.id c hc ((h.chans _ _ hchs).2 c hm).1)
    constructor
    · simp; have := h.small; omega
    · exact (List.nodup_cons.mp hids).2
    · intro x hx; exact h.idBound x (hsub x hx)
    · intro i l hl; exact h.senderBound i l (hsend i l hl).2
    · intro x hx k hk
      have h1 := h.keyed x (hsub x hx) k hk
      show kd k = some x.id
      rw [hkeq]
      split
      · rename_i hk'
        have := h.keyed t ht k hk'
        rw [this] at h1
        exact absurd (Option.some.inj h1).symm (hne x hx)
      · exact h1
    · intro k i hk; exact h.keyedBound k i (hkd k i hk).1
    · intro k i hk
      obtain ⟨hk1, hk2⟩ := hkd k i hk
      obtain ⟨a, ch, b⟩ := h.keyedActive k i hk1
      refine ⟨?_, ch, by simp [b]⟩
      rw [hpan]
      refine a.imp_left ?_
      intro hx
      have := hperm.mem_iff.mp hx
      simp only [List.mem_cons] at this
      rcases this with e | e
      · exact absurd (by rw [← e]) hk2
      · exact e
    · intro i l hl
      obtain ⟨hi, hl'⟩ := hsend i l hl
      obtain ⟨a, b⟩ := h.chans i l hl'
      refine ⟨a, fun c hc => ⟨(hj i c).mpr (b c hc).1, ?_⟩⟩
      show sendAll st.inbox chs r c = []
      rw [hother i c (b c hc).1 hi]
      exact (b c hc).2
    · intro i j ci cj c hi hj'
      exact h.disjoint i j ci cj c (hsend i ci hi).2 (hsend j cj hj').2
    · intro i c hc; exact h.joinedBound i c ((hj i c).mp hc)
    · intro i j c hi hj'; exact h.joinedUnique i j c ((hj i c).mp hi) ((hj j c).mp hj')
    · intro c hc
      show sendAll st.inbox chs r c = []
      rw [sendAll_other]
      · exact h.fresh c hc
      · intro hm
        have := (h.senderBound _ _ hchs).2 c hm
        replace hc : st.channels ≤ c := hc
        omega
    · intro i c hc
      rw [hj] at hc
      rw [hres, hpan]
      by_cases hi : t.id = i
      · subst hi
        rcases h.waiting t.id c hc with ⟨⟨l, hl, hm⟩, _, b, d⟩ | ⟨_, _, _, _, f, _⟩
        · rw [hchs] at hl; cases hl
          refine .inr ⟨r, by simp [b], ?_, put_self _ _ _, hne, ho2⟩
          show sendAll st.inbox chs r c = [r]
          rw [sendAll_mem hm (h.chans _ _ hchs).1, d, List.nil_append]
        · exact absurd rfl (f t ht)
      · have hi' : i ≠ t.id := fun e => hi e.symm
        rw [if_neg hi, List.append_nil]
        show ((∃ l, put st.senders t.id none i = some l ∧ c ∈ l) ∧ _ ∧ _ ∧
          sendAll st.inbox chs r c = []) ∨ ∃ r', _ ∧ sendAll st.inbox chs r c = [r'] ∧
          put st.senders t.id none i = none ∧ _ ∧ _
        rw [put_ne _ _ hi', hother i c hc hi']
        rcases h.waiting i c hc with ⟨a, b, d⟩ | ⟨r', a, b, d, f, g⟩
        · refine .inl ⟨a, b.imp_left ?_, d⟩
          rintro ⟨x, hx, hxi⟩
          have := hperm.mem_iff.mp hx
          simp only [List.mem_cons] at this
          rcases this with e | e
          · exact absurd (by rw [← hxi, e]) hi'
          · exact ⟨x, e, hxi⟩
        · exact .inr ⟨r', a, b, d, fun x hx => f x (hsub x hx), g⟩
    · intro x hx
      obtain ⟨a, b, c, d⟩ := h.open_ x (hsub x hx)
      have hxt := hne x hx
      refine ⟨?_, by rw [hpan]; exact b, c, (hj _ _).mpr d⟩
      rw [hres, a, if_neg (fun e => hxt e.symm)]
      rfl
    · intro i hi
      rw [hpan, hres]
      obtain ⟨a, b⟩ := h.unborn i hi
      have : t.id ≠ i := by
        have := (h.idBound t ht).1
        replace hi : st.lastId < i := hi
        omega
      exact ⟨by rw [a, if_neg this]; rfl, b⟩
    · intro i hi
      rw [hpan] at hi
      obtain ⟨a, b⟩ := h.panickedBound i hi
      have : t.id ≠ i := by rintro rfl; exact ho2 hi
      exact ⟨by rw [hres, a, if_neg this]; rfl, fun x hx => b x (hsub x hx)⟩

theorem inv_run {evs : List (Event K R)} {st : St K R} (h : Run St.new evs st)
    (hlen : evs.length < 2 ^ 64) : Inv evs st := by
  generalize hs : (St.new : St K R) = s0 at h
  induction h with
  | nil => subst hs; exact inv_new
  | snoc h s ih =>
    subst hs
    simp only [List.length_append, List.length_cons, List.length_nil] at hlen
    exact inv_step (ih (by omega)) (by omega) s

end Bonsai.Jobs
