import Verif.Net.Callbacks
/-!
# C97: messages out of band and their callbacks

Each message that the server sends to a client out of band is given to the callback of its API once, in order; a callback
may use the client.  The last part is violated on every transport but that of browsers, where callbacks overlap instead.
-/
set_option linter.unusedSimpArgs false
set_option linter.unusedVariables false

namespace Bonsai.Callbacks

/-! ## Specification -/

/-- The messages in a sequence of payloads. -/
def messages (l : List Payload) : List Nat := l.filterMap fun p => match p with
  | .message m => some m
  | .response _ => none

/-- The message of a callback. -/
def Task.message : Task → Nat
  | .run m _ => m
  | .wait m _ _ => m

/-- The request is waited for by a callback. -/
def AwaitedBy (st : St) (r : Nat) : Prop := ∃ m k, Task.wait m k r ∈ st.tasks

/-- The name of a registration. -/
def Reg.name : Reg → String
  | .api n => n
  | .callback n _ => n

/-! ## Proofs -/

structure Inv (c : Cfg) (st : St) : Prop where
  fresh : ∀ r, st.next ≤ r → st.req r = .new ∧ st.inner r = false ∧ st.responded r = false
  inLt : ∀ r, .response r ∈ st.inbox → st.responded r = true
  respondedLt : ∀ r, st.responded r = true → r < st.next
  waitLt : ∀ m k r, Task.wait m k r ∈ st.tasks → r < st.next ∧ st.inner r = true
  once : st.started ++ (messages st.inbox).filter c.has = (List.range st.sent).filter c.has
  answered : ∀ r, st.req r = .answered → st.responded r = true
  made : ∀ r, r < st.next → st.req r ≠ .new
  native : c.browser = false → st.tasks.length ≤ 1 ∧ st.started = st.finished ++ st.tasks.map Task.message ∧
    ∀ r, st.inner r = true → st.req r ≠ .answered ∧ (st.req r = .out → AwaitedBy st r)

theorem messages_append (a b : List Payload) : messages (a ++ b) = messages a ++ messages b := by
  simp [messages, List.filterMap_append]

theorem inv_init (c : Cfg) : Inv c .init := by
  constructor <;> simp [St.init, messages]

theorem single {α : Type} {l a b : List α} {x : α} (h : l.length ≤ 1) (e : l = a ++ x :: b) : a = [] ∧ b = [] := by
  subst e
  simp only [List.length_append, List.length_cons] at h
  exact ⟨List.length_eq_zero_iff.1 (by omega), List.length_eq_zero_iff.1 (by omega)⟩

theorem inv_step {c : Cfg} {a b : St} {t : Bool} (h : Inv c a) (s : Step c t a b) : Inv c b := by
  obtain ⟨h1, h2, h3, h4, h5, h6, h7, h8⟩ := h
  cases s with
  | call =>
    constructor <;> simp only [St.setReq, AwaitedBy] at * <;> grind
  | respond g1 g2 =>
    refine ⟨?_, ?_, ?_, h4, ?_, ?_, h7, h8⟩
    · grind
    · grind
    · grind
    · simpa [messages_append, messages] using h5
    · grind
  | send =>
    refine ⟨h1, ?_, h3, h4, ?_, h6, h7, h8⟩
    · grind
    · simp only [messages_append, List.filter_append, List.range_succ, ← List.append_assoc, h5]
      simp [messages]
  | take g1 g2 =>
    rename_i r rest
    have hr : a.responded r = true := h2 r (by rw [g2]; exact List.mem_cons_self)
    refine ⟨?_, ?_, h3, h4, ?_, ?_, ?_, ?_⟩
    · simp only [St.setReq]; grind
    · simp only [St.setReq]; intro x hx; exact h2 x (by rw [g2]; exact List.mem_cons_of_mem _ hx)
    · simp only [St.setReq]; rw [g2] at h5; simpa [messages] using h5
    · simp only [St.setReq]; grind
    · simp only [St.setReq]; grind
    · intro hb
      obtain ⟨n1, n2, n3⟩ := h8 hb
      refine ⟨n1, n2, ?_⟩
      have ht : a.tasks = [] := g1.resolve_left (by simp [hb])
      simp only [St.setReq, AwaitedBy, ht] at *
      grind
  | ignore g1 g2 g3 =>
    refine ⟨h1, ?_, h3, h4, ?_, h6, h7, h8⟩
    · intro x hx; exact h2 x (by rw [g2]; exact List.mem_cons_of_mem _ hx)
    · rw [g2] at h5; simpa [messages, g3] using h5
  | invoke g1 g2 g3 =>
    refine ⟨h1, ?_, h3, ?_, ?_, h6, h7, ?_⟩
    · intro x hx; exact h2 x (by rw [g2]; exact List.mem_cons_of_mem _ hx)
    · simp only [List.mem_append, List.mem_singleton]
      rintro m k r (hm | hm)
      · exact h4 m k r hm
      · cases hm
    · rw [g2] at h5
      simp only [messages, List.filterMap_cons, List.filter_cons, g3, if_true] at h5
      rw [← h5]
      simp [messages]
    · intro hb
      obtain ⟨n1, n2, n3⟩ := h8 hb
      have ht : a.tasks = [] := g1.resolve_left (by simp [hb])
      simp only [AwaitedBy, ht] at *
      refine ⟨by simp, by simp [n2, Task.message], ?_⟩
      grind
  | inner g =>
    rename_i m k x y
    refine ⟨?_, h2, ?_, ?_, h5, ?_, ?_, ?_⟩
    · simp only [St.setReq]; grind
    · simp only [St.setReq]; grind
    · simp only [St.setReq]; rw [g] at h4; grind
    · simp only [St.setReq]; grind
    · simp only [St.setReq]; grind
    · intro hb
      obtain ⟨n1, n2, n3⟩ := h8 hb
      obtain ⟨rfl, rfl⟩ := single n1 g
      simp only [St.setReq, AwaitedBy, g, List.nil_append, List.length_singleton, List.map_cons, List.map_nil] at *
      refine ⟨by omega, n2, ?_⟩
      intro r hr
      have := n3 r
      by_cases e : r = a.next
      · subst e
        simp
      · simp only [if_neg e] at *
        grind
  | resume g1 g2 =>
    rename_i m k r x y
    refine ⟨h1, h2, h3, ?_, h5, h6, h7, ?_⟩
    · rw [g1] at h4; grind
    · intro hb
      obtain ⟨n1, n2, n3⟩ := h8 hb
      obtain ⟨rfl, rfl⟩ := single n1 g1
      simp only [AwaitedBy, g1, List.nil_append, List.length_singleton, List.map_cons, List.map_nil] at *
      refine ⟨by omega, n2, ?_⟩
      grind
  | finish g =>
    rename_i m x y
    refine ⟨h1, h2, h3, ?_, h5, h6, h7, ?_⟩
    · rw [g] at h4; grind
    · intro hb
      obtain ⟨n1, n2, n3⟩ := h8 hb
      obtain ⟨rfl, rfl⟩ := single n1 g
      simp only [AwaitedBy, g, List.nil_append, List.length_singleton, List.map_cons, List.map_nil] at *
      refine ⟨by simp, by simp [n2, Task.message], ?_⟩
      grind
  | timeout g =>
    refine ⟨?_, h2, h3, h4, h5, ?_, ?_, ?_⟩
    · simp only [St.setReq]; grind
    · simp only [St.setReq]; grind
    · simp only [St.setReq]; grind
    · intro hb
      obtain ⟨n1, n2, n3⟩ := h8 hb
      refine ⟨n1, n2, ?_⟩
      simp only [St.setReq, AwaitedBy] at *
      grind

theorem inv_steps {c : Cfg} {st : St} (h : Steps c .init st) : Inv c st := by
  induction h with
  | refl => exact inv_init c
  | step h1 h2 ih => exact inv_step ih h2

theorem Steps.trans {c : Cfg} {a b d : St} (h : Steps c a b) (g : Steps c b d) : Steps c a d := by
  induction g with
  | refl => exact h
  | step _ g2 ih => exact .step ih g2

theorem Patient.trans {c : Cfg} {a b d : St} (h : Patient c a b) (g : Patient c b d) : Patient c a d := by
  induction g with
  | refl => exact h
  | step _ g2 ih => exact .step ih g2

theorem Patient.steps {c : Cfg} {a b : St} (h : Patient c a b) : Steps c a b := by
  induction h with
  | refl => exact .refl
  | step _ g2 ih => exact .step ih g2

/-- A response that was sent and did not arrive is in the inbox. -/
theorem pending_step {c : Cfg} {a b : St} {t : Bool} (i : Inv c a)
    (h : ∀ r, a.responded r = true → .response r ∈ a.inbox ∨ a.req r ≠ .out) (s : Step c t a b) :
    ∀ r, b.responded r = true → .response r ∈ b.inbox ∨ b.req r ≠ .out := by
  obtain ⟨h1, h2, h3, h4, h5, h6, h7, h8⟩ := i
  clear h4 h5 h6 h8
  cases s <;> simp only [St.setReq] at * <;> grind

theorem pending {c : Cfg} {st : St} (h : Steps c .init st) (r : Nat) (g : st.responded r = true) :
    .response r ∈ st.inbox ∨ st.req r ≠ .out := by
  revert r
  induction h with
  | refl => intro r g; simp [St.init] at g
  | step h1 h2 ih => exact pending_step (inv_steps h1) ih h2

theorem kept_step {c : Cfg} {a b : St} {t : Bool} (i : Inv c a) (s : Step c t a b) (r : Nat) :
    (a.req r = .answered → b.req r = .answered) ∧ (a.req r = .timedOut → b.req r = .timedOut) := by
  have h1 := i.fresh
  clear i
  cases s <;> simp only [St.setReq] at * <;> grind

/-! ## Messages -/

/-- Each message whose API has a callback is given to the callback once, in the order in which the server sent them; those
that were not yet are on their way. -/
theorem C97_messages (c : Cfg) (st : St) (h : Steps c .init st) :
    st.started ++ (messages st.inbox).filter c.has = (List.range st.sent).filter c.has :=
  (inv_steps h).once

/-- Without a browser the callbacks run one at a time: at most one runs, and the others ended in order. -/
theorem C97_one_at_a_time (c : Cfg) (hb : c.browser = false) (st : St) (h : Steps c .init st) :
    st.tasks.length ≤ 1 ∧ st.started = st.finished ++ st.tasks.map Task.message :=
  ⟨((inv_steps h).native hb).1, ((inv_steps h).native hb).2.1⟩

/-- A request is given a response only if the server responded to it, and what became of it is final; once all that
arrived was handled, no request to which the server responded waits. -/
theorem C97_answers (c : Cfg) (st : St) (h : Steps c .init st) (r : Nat) :
    (st.req r = .answered → st.responded r = true) ∧
      (∀ st', Steps c st st' → (st.req r = .answered → st'.req r = .answered) ∧
        (st.req r = .timedOut → st'.req r = .timedOut)) ∧
      (st.inbox = [] → st.responded r = true → st.req r ≠ .out) := by
  refine ⟨(inv_steps h).answered r, ?_, ?_⟩
  · intro st' g
    induction g with
    | refl => exact ⟨id, id⟩
    | step g1 g2 ih =>
      have := kept_step (inv_steps (h.trans g1)) g2 r
      exact ⟨fun x => this.1 (ih.1 x), fun x => this.2 (ih.2 x)⟩
  · intro hi hr
    rcases pending h r hr with g | g
    · rw [hi] at g; cases g
    · exact g

/-! ## Progress -/

/-- The callbacks make no requests. -/
theorem simple_step {c : Cfg} (hc : ∀ m, c.calls m = 0) {a b : St} {t : Bool}
    (h : ∀ x, x ∈ a.tasks → ∃ m, x = Task.run m 0) (s : Step c t a b) : ∀ x, x ∈ b.tasks → ∃ m, x = Task.run m 0 := by
  cases s with
  | inner g =>
    rename_i m k x y
    obtain ⟨m', e⟩ := h (.run m (k + 1)) (by rw [g]; simp)
    simp at e
  | resume g _ =>
    rename_i m k r x y _
    obtain ⟨m', e⟩ := h (.wait m k r) (by rw [g]; simp)
    simp at e
  | finish g =>
    intro x hx
    refine h x ?_
    rw [g]
    rcases List.mem_append.1 hx with hx | hx
    · exact List.mem_append_left _ hx
    · exact List.mem_append_right _ (List.mem_cons_of_mem _ hx)
  | invoke g1 g2 g3 =>
    simp only [List.mem_append, List.mem_singleton]
    rintro x (hx | rfl)
    · exact h x hx
    · exact ⟨_, by rw [hc]⟩
  | _ => exact h

theorem simple {c : Cfg} (hc : ∀ m, c.calls m = 0) {st : St} (h : Steps c .init st) :
    ∀ x, x ∈ st.tasks → ∃ m, x = Task.run m 0 := by
  induction h with
  | refl => intro x hx; simp [St.init] at hx
  | step _ h2 ih => exact simple_step hc ih h2

/-- All the tasks of callbacks that make no requests end. -/
theorem finish_all {c : Cfg} : ∀ (l : List Task) (st : St), st.tasks = l → (∀ x, x ∈ l → ∃ m, x = Task.run m 0) →
    ∃ st', Patient c st st' ∧ st'.tasks = [] ∧ st'.inbox = st.inbox
  | [], st, h, _ => ⟨st, .refl, h, rfl⟩
  | x :: l, st, h, hs => by
    obtain ⟨m, rfl⟩ := hs x List.mem_cons_self
    have s : Step c false st { st with tasks := [] ++ l, finished := st.finished ++ [m] } :=
      .finish (m := m) (a := []) (b := l) (by simpa using h)
    obtain ⟨st', p, q1, q2⟩ := finish_all (c := c) l
      { st with tasks := [] ++ l, finished := st.finished ++ [m] } rfl (fun y hy => hs y (List.mem_cons_of_mem _ hy))
    exact ⟨st', (Patient.step .refl s).trans p, q1, by simpa using q2⟩

theorem drain_simple {c : Cfg} (hc : ∀ m, c.calls m = 0) : ∀ (l : List Payload) (st : St), st.inbox = l →
    Steps c .init st → ∃ st', Patient c st st' ∧ st'.tasks = [] ∧ st'.inbox = []
  | l, st, h, hr => by
    obtain ⟨s1, p1, t1, i1⟩ := finish_all (c := c) st.tasks st rfl (simple hc hr)
    cases l with
    | nil => exact ⟨s1, p1, t1, by rw [i1, h]⟩
    | cons x l =>
      have hi : s1.inbox = x :: l := by rw [i1, h]
      have next : ∃ s2, Step c false s1 s2 ∧ s2.inbox = l := by
        cases x with
        | response r => exact ⟨_, .take (Or.inr t1) hi, rfl⟩
        | message m =>
          cases hm : c.has m with
          | false => exact ⟨_, .ignore (Or.inr t1) hi hm, rfl⟩
          | true => exact ⟨_, .invoke (Or.inr t1) hi hm, rfl⟩
      obtain ⟨s2, e2, i2⟩ := next
      have p2 := Patient.step p1 e2
      obtain ⟨s3, p3, t3, i3⟩ := drain_simple hc l s2 i2 (hr.trans p2.steps)
      exact ⟨s3, p2.trans p3, t3, i3⟩

/-- In a browser what arrived is handled. -/
theorem drain_browser {c : Cfg} (hb : c.browser = true) : ∀ (l : List Payload) (st : St), st.inbox = l →
    ∃ st', Patient c st st' ∧ st'.inbox = []
  | [], st, h => ⟨st, .refl, h⟩
  | x :: l, st, h => by
    have next : ∃ s2, Step c false st s2 ∧ s2.inbox = l := by
      cases x with
      | response r => exact ⟨_, .take (Or.inl hb) h, rfl⟩
      | message m =>
        cases hm : c.has m with
        | false => exact ⟨_, .ignore (Or.inl hb) h hm, rfl⟩
        | true => exact ⟨_, .invoke (Or.inl hb) h hm, rfl⟩
    obtain ⟨s2, e2, i2⟩ := next
    obtain ⟨s3, p3, i3⟩ := drain_browser hb l s2 i2
    exact ⟨s3, (Patient.step .refl e2).trans p3, i3⟩

/-- In a browser the first callback that waits gets its response. -/
theorem wake {c : Cfg} (hb : c.browser = true) {st : St} {m k r : Nat} {l : List Task} (h : Steps c .init st)
    (hi : st.inbox = []) (ht : st.tasks = .wait m k r :: l) :
    ∃ st', Patient c st st' ∧ st'.inbox = [] ∧ st'.tasks = .run m k :: l := by
  by_cases ho : st.req r = .out
  · have hn : st.responded r = false := by
      cases e : st.responded r with
      | false => rfl
      | true =>
        rcases pending h r e with g | g
        · rw [hi] at g; cases g
        · exact absurd ho g
    have hw := ((inv_steps h).waitLt m k r (by rw [ht]; exact List.mem_cons_self)).1
    have p1 := Patient.step .refl (Step.respond (c := c) hw hn)
    have p2 := Patient.step p1 (Step.take (r := r) (rest := []) (Or.inl hb) (by simp [hi]))
    have p3 := Patient.step p2
      (Step.resume (m := m) (k := k) (r := r) (a := []) (b := l) (by simpa [St.setReq] using ht) (by simp [St.setReq, ho]))
    exact ⟨_, p3, by simp [St.setReq], by simp⟩
  · exact ⟨_, Patient.step .refl (Step.resume (m := m) (k := k) (r := r) (a := []) (b := l) (by simpa using ht) ho),
      hi, by simp⟩

theorem run_browser {c : Cfg} (hb : c.browser = true) (m : Nat) (l : List Task) : ∀ (k : Nat) (st : St),
    Steps c .init st → st.inbox = [] → st.tasks = .run m k :: l →
    ∃ st', Patient c st st' ∧ st'.inbox = [] ∧ st'.tasks = l
  | 0, st, h, hi, ht =>
    ⟨_, Patient.step .refl (Step.finish (m := m) (a := []) (b := l) (by simpa using ht)), hi, by simp⟩
  | k + 1, st, h, hi, ht => by
    have p1 := Patient.step .refl (Step.inner (c := c) (m := m) (k := k) (a := []) (b := l) (by simpa using ht))
    obtain ⟨s2, p2, i2, t2⟩ := wake (m := m) (k := k) (r := st.next) (l := l) hb (h.trans p1.steps) (by simpa [St.setReq] using hi)
      (by simp [St.setReq])
    obtain ⟨s3, p3, i3, t3⟩ := run_browser hb m l k s2 ((h.trans p1.steps).trans p2.steps) i2 t2
    exact ⟨s3, (p1.trans p2).trans p3, i3, t3⟩

theorem tasks_browser {c : Cfg} (hb : c.browser = true) : ∀ (l : List Task) (st : St),
    Steps c .init st → st.inbox = [] → st.tasks = l → ∃ st', Patient c st st' ∧ st'.inbox = [] ∧ st'.tasks = []
  | [], st, h, hi, ht => ⟨st, .refl, hi, ht⟩
  | x :: l, st, h, hi, ht => by
    have one : ∃ st', Patient c st st' ∧ st'.inbox = [] ∧ st'.tasks = l := by
      cases x with
      | run m k => exact run_browser hb m l k st h hi ht
      | wait m k r =>
        obtain ⟨s1, p1, i1, t1⟩ := wake hb h hi ht
        obtain ⟨s2, p2, i2, t2⟩ := run_browser hb m l k s1 (h.trans p1.steps) i1 t1
        exact ⟨s2, p1.trans p2, i2, t2⟩
    obtain ⟨s1, p1, i1, t1⟩ := one
    obtain ⟨s2, p2, i2, t2⟩ := tasks_browser hb l s1 (h.trans p1.steps) i1 t1
    exact ⟨s2, p1.trans p2, i2, t2⟩

/-- In a browser, or if the callbacks make no requests, all that arrived can be handled and all the callbacks can end
without anybody giving up.  Missing: the callbacks of other clients that make requests, with `C97_violated_callback`. -/
theorem C97_progress_partial (c : Cfg) (hc : c.browser = true ∨ ∀ m, c.calls m = 0) (st : St) (h : Steps c .init st) :
    ∃ st', Patient c st st' ∧ st'.inbox = [] ∧ st'.tasks = [] ∧
      ∀ r, st'.responded r = true → st'.req r ≠ .out := by
  have main : ∃ st', Patient c st st' ∧ st'.inbox = [] ∧ st'.tasks = [] := by
    rcases hc with hb | hc
    · obtain ⟨s1, p1, i1⟩ := drain_browser hb st.inbox st rfl
      obtain ⟨s2, p2, i2, t2⟩ := tasks_browser hb s1.tasks s1 (h.trans p1.steps) i1 rfl
      exact ⟨s2, p1.trans p2, i2, t2⟩
    · obtain ⟨s1, p1, t1, i1⟩ := drain_simple hc st.inbox st rfl h
      exact ⟨s1, p1, i1, t1⟩
  obtain ⟨s, p, i, t⟩ := main
  exact ⟨s, p, i, t, fun r => (C97_answers c s (h.trans p.steps) r).2.2 i⟩

/-! ## What is violated -/

/-- Nothing but a timeout ends the wait of a callback that made a request. -/
theorem blocked_step {c : Cfg} (hb : c.browser = false) {a b : St} {m k r : Nat} (i : Inv c a)
    (ht : a.tasks = [.wait m k r]) (ho : a.req r = .out) (s : Step c false a b) :
    b.tasks = [.wait m k r] ∧ b.req r = .out ∧ b.started = a.started ∧ b.finished = a.finished ∧
      (∀ j, b.req j = .answered → a.req j = .answered) ∧ ∃ l, b.inbox = a.inbox ++ l := by
  have hw := (i.waitLt m k r (by rw [ht]; exact List.mem_cons_self)).1
  have h1 := i.fresh
  have no : ¬ (c.browser = true ∨ a.tasks = []) := by simp [hb, ht]
  cases s with
  | take g => exact absurd g no
  | ignore g => exact absurd g no
  | invoke g => exact absurd g no
  | call =>
    refine ⟨ht, ?_, rfl, rfl, ?_, [], by simp [St.setReq]⟩ <;> simp only [St.setReq] <;> grind
  | respond g1 g2 => exact ⟨ht, ho, rfl, rfl, fun _ => id, _, rfl⟩
  | send => exact ⟨ht, ho, rfl, rfl, fun _ => id, _, rfl⟩
  | inner g =>
    rw [ht] at g
    obtain ⟨rfl, rfl⟩ := single (l := [Task.wait m k r]) (by simp) g
    simp at g
  | resume g1 g2 =>
    rw [ht] at g1
    obtain ⟨rfl, rfl⟩ := single (l := [Task.wait m k r]) (by simp) g1
    simp only [List.nil_append, List.cons.injEq, Task.wait.injEq, and_true] at g1
    obtain ⟨rfl, rfl, rfl⟩ := g1
    exact absurd ho g2
  | finish g =>
    rw [ht] at g
    obtain ⟨rfl, rfl⟩ := single (l := [Task.wait m k r]) (by simp) g
    simp at g

/-- Without a browser, a request that a callback makes to its client is never given its response: while the callback waits
no payload is handled, so that no request is given a response and no callback is invoked until somebody gives up.  Every
callback that makes a request comes to that, with the response of the server already there. -/
theorem C97_violated_callback (c : Cfg) (hb : c.browser = false) :
    (∀ st r, Steps c .init st → st.inner r = true → st.req r ≠ .answered) ∧
    (∀ st m k r, Steps c .init st → Task.wait m k r ∈ st.tasks → st.req r = .out → ∀ st', Patient c st st' →
      Task.wait m k r ∈ st'.tasks ∧ st'.started = st.started ∧ st'.finished = st.finished ∧
        (∀ j, st'.req j = .answered → st.req j = .answered) ∧ ∃ l, st'.inbox = st.inbox ++ l) ∧
    (∀ st m, Steps c .init st → .run m (c.calls m) ∈ st.tasks → c.calls m ≠ 0 →
      ∃ st' k r, Patient c st st' ∧ st'.tasks = [.wait m k r] ∧ st'.req r = .out ∧ st'.responded r = true ∧
        .response r ∈ st'.inbox) := by
  refine ⟨fun st r h hr => (((inv_steps h).native hb).2.2 r hr).1, ?_, ?_⟩
  · intro st m k r h hm ho st' p
    have ht : st.tasks = [.wait m k r] := by
      have := ((inv_steps h).native hb).1
      match e : st.tasks, this, hm with
      | [x], _, hm => rw [List.mem_singleton] at hm; rw [hm]
      | x :: y :: l, this, _ => simp at this
    suffices st'.tasks = [.wait m k r] ∧ st'.req r = .out ∧ st'.started = st.started ∧ st'.finished = st.finished ∧
        (∀ j, st'.req j = .answered → st.req j = .answered) ∧ ∃ l, st'.inbox = st.inbox ++ l by
      obtain ⟨q1, _, q2⟩ := this
      exact ⟨by rw [q1]; exact List.mem_singleton.2 rfl, q2⟩
    induction p with
    | refl => exact ⟨ht, ho, rfl, rfl, fun _ => id, [], by simp⟩
    | step p1 p2 ih =>
      obtain ⟨a1, a2, a3, a4, a5, l, a6⟩ := ih
      obtain ⟨b1, b2, b3, b4, b5, l', b6⟩ := blocked_step hb (inv_steps (h.trans p1.steps)) a1 a2 p2
      exact ⟨b1, b2, b3.trans a3, b4.trans a4, fun j hj => a5 j (b5 j hj), l ++ l', by rw [b6, a6, List.append_assoc]⟩
  · intro st m h hm hc
    obtain ⟨k, hk⟩ := Nat.exists_eq_succ_of_ne_zero hc
    have ht : st.tasks = [.run m (k + 1)] := by
      have := ((inv_steps h).native hb).1
      rw [hk] at hm
      match e : st.tasks, this, hm with
      | [x], _, hm => rw [List.mem_singleton] at hm; rw [hm]
      | x :: y :: l, this, _ => simp at this
    have hr := ((inv_steps h).fresh st.next (Nat.le_refl _)).2.2
    have p1 := Patient.step .refl (Step.inner (c := c) (m := m) (k := k) (a := []) (b := []) (by simpa using ht))
    have p2 := Patient.step p1 (Step.respond (r := st.next) (by simp [St.setReq]) (by simpa [St.setReq] using hr))
    exact ⟨_, k, st.next, p2, by simp [St.setReq], by simp [St.setReq], by simp [St.setReq], by simp⟩

/-- Two messages, a callback that makes one request, without a browser. -/
def nativeCfg : Cfg := ⟨fun _ => true, fun _ => 1, false⟩
def browserCfg : Cfg := ⟨fun _ => true, fun _ => 0, true⟩

/-- In a browser the callback of a message runs, and may end, while the callback of an earlier message runs. -/
theorem C97_violated_overlap : ∃ c st, c.browser = true ∧ Steps c .init st ∧ st.started = [0, 1] ∧ st.finished = [1] ∧
    st.tasks.map Task.message = [0] := by
  have e0 : Steps browserCfg .init .init := .refl
  have e1 := Steps.step e0 .send
  have e2 := Steps.step e1 .send
  have e3 := Steps.step e2 (.invoke (m := 0) (rest := [.message 1]) (Or.inl rfl) rfl rfl)
  have e4 := Steps.step e3 (.invoke (m := 1) (rest := []) (Or.inl rfl) rfl rfl)
  have e5 := Steps.step e4 (.finish (m := 1) (a := [.run 0 0]) (b := []) rfl)
  exact ⟨_, _, rfl, e5, rfl, rfl, rfl⟩

/-- A callback runs and makes a request: `C97_violated_callback` is about something. -/
example : ∃ st, Steps nativeCfg .init st ∧ Task.run 0 (nativeCfg.calls 0) ∈ st.tasks ∧ nativeCfg.calls 0 ≠ 0 := by
  have e0 : Steps nativeCfg .init .init := .refl
  have e1 := Steps.step e0 .send
  have e2 := Steps.step e1 (.invoke (m := 0) (rest := []) (Or.inr rfl) rfl rfl)
  exact ⟨_, e2, List.mem_singleton.2 rfl, by simp [nativeCfg]⟩

/-- A callback waits, its response and that of the program's request are there. -/
example : ∃ st, Steps nativeCfg .init st ∧ Task.wait 0 0 1 ∈ st.tasks ∧ st.req 1 = .out ∧ st.req 0 = .out ∧
    st.inbox = [.response 1, .response 0, .message 1] := by
  have e0 : Steps nativeCfg .init .init := .refl
  have e1 := Steps.step e0 .call
  have e2 := Steps.step e1 .send
  have e3 := Steps.step e2 (.invoke (m := 0) (rest := []) (Or.inr rfl) rfl rfl)
  have e4 := Steps.step e3 (.inner (m := 0) (k := 0) (a := []) (b := []) rfl)
  have e5 := Steps.step e4 (.respond (r := 1) (by decide) rfl)
  have e6 := Steps.step e5 (.respond (r := 0) (by decide) rfl)
  have e7 := Steps.step e6 .send
  exact ⟨_, e7, List.mem_singleton.2 rfl, rfl, rfl, rfl⟩

/-- Once it gave up, the rest is handled. -/
example : ∃ st, Steps nativeCfg .init st ∧ st.req 1 = .timedOut ∧ st.req 0 = .answered ∧ st.finished = [0] ∧
    st.inbox = [] := by
  have e0 : Steps nativeCfg .init .init := .refl
  have e1 := Steps.step e0 .call
  have e2 := Steps.step e1 .send
  have e3 := Steps.step e2 (.invoke (m := 0) (rest := []) (Or.inr rfl) rfl rfl)
  have e4 := Steps.step e3 (.inner (m := 0) (k := 0) (a := []) (b := []) rfl)
  have e5 := Steps.step e4 (.respond (r := 0) (by decide) rfl)
  have e6 := Steps.step e5 (.timeout (r := 1) rfl)
  have e7 := Steps.step e6 (.resume (m := 0) (k := 0) (r := 1) (a := []) (b := []) rfl (by simp [St.setReq]))
  have e8 := Steps.step e7 (.finish (m := 0) (a := []) (b := []) rfl)
  have e9 := Steps.step e8 (.take (r := 0) (rest := []) (Or.inr rfl) rfl)
  exact ⟨_, e9, rfl, rfl, rfl, rfl⟩

/-! ## The builder -/

theorem foldl_other {name : String} : ∀ (regs : List Reg) (m : String → Option (Option Nat)),
    (∀ x, x ∈ regs → x.name ≠ name) → (regs.foldl insertReg m) name = m name
  | [], _, _ => rfl
  | x :: l, m, h => by
    rw [List.foldl_cons, foldl_other l _ fun y hy => h y (List.mem_cons_of_mem _ hy)]
    have := h x List.mem_cons_self
    cases x <;> simp only [insertReg, Reg.name] at * <;> rw [if_neg (Ne.symm this)]

/-- The callback of a name is that of its last registration; none if that gave none or there is none; the name of the
messages of subscriptions is the client's own, whatever was registered. -/
theorem C97_callback (reserved : String) (own : Nat) :
    (∀ regs, callbackOf (callbacks reserved own regs) reserved = some own) ∧
    (∀ before after name f, name ≠ reserved → (∀ x, x ∈ after → x.name ≠ name) →
      callbackOf (callbacks reserved own (before ++ .callback name f :: after)) name = some f ∧
      callbackOf (callbacks reserved own (before ++ .api name :: after)) name = none) ∧
    (∀ regs name, name ≠ reserved → (∀ x, x ∈ regs → x.name ≠ name) →
      callbackOf (callbacks reserved own regs) name = none) := by
  refine ⟨fun regs => ?_, fun before after name f h g => ?_, fun regs name h g => ?_⟩
  · simp [callbackOf, callbacks, insertReg]
  · simp only [callbackOf, callbacks, insertReg, if_neg h, List.foldl_append, List.foldl_cons]
    rw [foldl_other _ _ g, foldl_other _ _ g]
    simp
  · simp only [callbackOf, callbacks, insertReg, if_neg h]
    rw [foldl_other _ _ g]
    rfl

/-- "Enables using an API with this client" takes the callback of that API away, if it was given before. -/
theorem C97_violated_with_api (reserved : String) (own f : Nat) (name : String) (h : name ≠ reserved) :
    callbackOf (callbacks reserved own [.callback name f]) name = some f ∧
      callbackOf (callbacks reserved own [.callback name f, .api name]) name = none :=
  ⟨((C97_callback reserved own).2.1 [] [] name f h (by simp)).1,
    ((C97_callback reserved own).2.1 [.callback name f] [] name f h (by simp)).2⟩

example : callbackOf (callbacks "bonsaidb.MessageReceived" 9 [.api "a", .callback "b" 1, .callback "a" 2]) "a" = some 2 := by
  decide

end Bonsai.Callbacks
