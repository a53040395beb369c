import Verif.Tasks.JobError

/-!
# C93: those who wait for a job that fails see its error
-/
set_option linter.unusedSimpArgs false
set_option linter.unusedVariables false

namespace Bonsai.JobErr

theorem sumUp_succ (n : Nat) (f : Nat → Nat) : sumUp (n + 1) f = sumUp n f + f n := by
  simp [sumUp, List.range_succ]

theorem sumUp_congr {n : Nat} {f g : Nat → Nat} (h : ∀ j, j < n → f j = g j) : sumUp n f = sumUp n g := by
  induction n with
  | zero => rfl
  | succ n ih => rw [sumUp_succ, sumUp_succ, ih fun j hj => h j (by omega), h n (by omega)]

theorem sumUp_put (k : Nat) (f : Nat → Nat) (i x : Nat) (hi : i < k) :
    sumUp k (fun j => if j = i then x else f j) + f i = sumUp k f + x := by
  induction k with
  | zero => omega
  | succ k ih =>
    rw [sumUp_succ, sumUp_succ]
    by_cases h : k = i
    · subst h
      have := sumUp_congr (n := k) (f := fun j => if j = k then x else f j) (g := f)
        (fun j hj => by simp [Nat.ne_of_lt hj])
      simp only [this, if_true]
      omega
    · have := ih (by omega)
      simp only [h, if_false]
      omega

theorem sumUp_le (k : Nat) (f : Nat → Nat) (i : Nat) (hi : i < k) : f i ≤ sumUp k f := by
  induction k with
  | zero => omega
  | succ k ih =>
    rw [sumUp_succ]
    rcases Nat.lt_or_ge i k with h | h
    · have := ih h; omega
    · have : i = k := by omega
      subst this; omega

theorem sumUp_le2 (k : Nat) (f : Nat → Nat) (i j : Nat) (hi : i < k) (hj : j < k) (h : i ≠ j) :
    f i + f j ≤ sumUp k f := by
  have h1 := sumUp_put k f i 0 hi
  have h2 := sumUp_le k (fun m => if m = i then 0 else f m) j hj
  simp only [if_neg (Ne.symm h)] at h2
  omega

/-- If one waiter has the error itself, nobody else has a reference to it or will get one. -/
structure Inv (k : Nat) (st : St) : Prop where
  range : st.next ≤ k
  tail : ∀ i, st.slot i ≠ .waiting → st.slot i ≠ .left → i < st.next
  all : st.own = false → st.next = k
  sole : ∀ i, i < k → st.slot i = .original → st.own = false ∧
    ∀ j, j < k → j ≠ i → (st.slot j).refs = 0 ∧ st.slot j ≠ .original
  sent : ∀ i, i < st.next → st.slot i ≠ .waiting

theorem inv_steps {k : Nat} {st : St} (h : Steps k .init st) : Inv k st := by
  induction h with
  | refl => exact ⟨by simp [St.init], by simp [St.init], by simp [St.init], by simp [St.init], by simp [St.init]⟩
  | @step a b _ hs ih =>
    obtain ⟨h1, h2, h3, h4, h5⟩ := ih
    cases hs with
    | @unwrap i hi ht hc =>
      refine ⟨h1, ?_, h3, ?_, ?_⟩
      · intro j; simp only [St.put]; grind
      · have hle := sumUp_le k (fun j => (a.slot j).refs) i hi
        have hr : Slot.refs .taken = 1 := rfl
        simp only [ht, hr] at hle
        simp only [St.count] at hc
        intro m hm hmo
        have hmi : m = i := by
          refine Classical.byContradiction fun hne => ?_
          have : a.slot m = .original := by simpa [St.put, hne] using hmo
          have := ((h4 m hm this).2 i hi (Ne.symm hne)).1
          rw [ht] at this; simp [Slot.refs] at this
        subst hmi
        refine ⟨?_, ?_⟩
        · simp only [St.put]
          cases ho : a.own with
          | false => rfl
          | true => rw [ho] at hc; simp only [if_true] at hc; omega
        · intro j hj hne
          have h22 := sumUp_le2 k (fun j => (a.slot j).refs) m j hm hj (Ne.symm hne)
          simp only [ht, hr] at h22
          have hz : (a.slot j).refs = 0 := by omega
          simp only [St.put, hne, if_false]
          refine ⟨hz, ?_⟩
          intro ho
          have := ((h4 j hj ho).2 m hm (Ne.symm hne)).1
          rw [ht] at this; simp [Slot.refs] at this
      · intro j; simp only [St.put]; grind
    | _ =>
      refine ⟨?_, ?_, ?_, ?_, ?_⟩ <;> grind [St.put, Slot.refs]

/-! ## Theorems -/

/-- However many wait for a job that fails, and in whatever order they are woken: at most one of them gets the error
itself. -/
theorem C93_at_most_one (k : Nat) (st : St) (h : Steps k .init st) (i j : Nat) (hi : i < k) (hj : j < k)
    (h1 : st.slot i = .original) (h2 : st.slot j = .original) : i = j := by
  refine Classical.byContradiction fun hne => ?_
  exact (((inv_steps h).sole i hi h1).2 j hj (Ne.symm hne)).2 h2

/-- It is one that looked after the job's thread was done with it and when no other waiter held it. -/
theorem C93_who (k : Nat) (st : St) (h : Steps k .init st) (i : Nat) (hi : i < k) (h1 : st.slot i = .original) :
    st.own = false ∧ ∀ j, j < k → j ≠ i → st.slot j = .dropped ∨ st.slot j = .left := by
  have hv := inv_steps h
  obtain ⟨h2, h3⟩ := hv.sole i hi h1
  refine ⟨h2, fun j hj hne => ?_⟩
  have h4 := h3 j hj hne
  have h5 := hv.sent j (by rw [hv.all h2]; exact hj)
  cases hs : st.slot j <;> simp_all [Slot.refs]

/-- When the job's thread is done, nobody who still waits is without an error, and what a waiter sees is either the error
of the job in the core's terms, or `Other` with its text. -/
theorem C93_everyone_partial (k : Nat) (st : St) (h : Steps k .init st) (e : LocalErr) (hd : st.own = false) (i : Nat)
    (hi : i < k) : st.slot i ≠ .waiting ∧ ∀ c, seen e (st.slot i) = some c →
      c = e.toCore ∨ c = .other "bonsaidb-local" ("an error from a job occurred: " ++ e.text) := by
  have hv := inv_steps h
  refine ⟨hv.sent i (by rw [hv.all hd]; exact hi), ?_⟩
  intro c hc
  cases hs : st.slot i <;> simp [hs, seen] at hc
  · exact Or.inl hc.symm
  · exact Or.inr (by rw [← hc]; rfl)
  · exact Or.inr (by rw [← hc]; rfl)

/-- Nobody waits forever: a job's thread that is not done can go on. -/
theorem C93_goes_on (k : Nat) (st : St) (h : Steps k .init st) (ho : st.own = true) : ∃ st', Step k st st' := by
  have hv := inv_steps h
  rcases Nat.lt_or_ge st.next k with h1 | h1
  · by_cases hw : st.slot st.next = .waiting
    · exact ⟨_, .send ho h1 hw⟩
    · by_cases hl : st.slot st.next = .left
      · exact ⟨_, .sendLeft ho h1 hl⟩
      · have := hv.tail st.next hw hl; omega
  · exact ⟨_, .finish ho (by have := hv.range; omega)⟩

/-- A core error stays what it is through every layer: from a view function or the local database, through the server's
errors, and through the client's; wrapped as the error of a job it never does. -/
theorem C93_layers (n : Nat) :
    (LocalErr.core (.kind n)).toCore = .kind n ∧ (LocalErr.view (.kind n)).toCore = .kind n ∧
    (ServerErr.core (.kind n)).toCore = .kind n ∧ (ClientErr.core (.kind n)).toCore = .kind n ∧
    (∀ e, e.toCore = .kind n → (ServerErr.database e).toCore = .kind n) ∧
    ∀ e, (LocalErr.job e).toCore ≠ .kind n ∧ (ServerErr.database (.job e)).toCore ≠ .kind n := by
  refine ⟨rfl, rfl, rfl, rfl, ?_, ?_⟩
  · intro e he
    cases e <;> simp [ServerErr.toCore, LocalErr.toCore] at he ⊢ <;> exact he
  · intro e
    constructor
    · simp [LocalErr.toCore]
    · simp [ServerErr.toCore, LocalErr.toCore]

/-- The server's conversion of a local error is the local conversion. -/
theorem C93_server (e : LocalErr) : (ServerErr.database e).toCore = e.toCore := by
  cases e <;> rfl

/-- **Violation.**  Even a single waiter can see `Other` instead of the error: it is woken while the thread of the job
still holds its own reference. -/
theorem C93_violated_single (n : Nat) : ∃ st, Steps 1 .init st ∧ seen (.core (.kind n)) (st.slot 0) ≠ none ∧
    seen (.core (.kind n)) (st.slot 0) ≠ some (.kind n) := by
  have e0 : Steps 1 .init .init := .refl
  have e1 := Steps.step e0 (.send rfl (by decide) rfl)
  have e2 := Steps.step e1 (.recv (i := 0) (by decide) rfl)
  have e3 := Steps.step e2 (.wrap (i := 0) (by decide) rfl (by decide +kernel))
  exact ⟨_, e3, by simp [St.put, seen], by simp [St.put, seen, LocalErr.toCore]⟩

/-- **Violation.**  Of two waiters it can be that neither sees the error. -/
theorem C93_violated_neither (n : Nat) : ∃ st, Steps 2 .init st ∧ st.own = false ∧
    ∀ i, i < 2 → seen (.core (.kind n)) (st.slot i) ≠ none ∧ seen (.core (.kind n)) (st.slot i) ≠ some (.kind n) := by
  have e0 : Steps 2 .init .init := .refl
  have e1 := Steps.step e0 (.send rfl (by decide) rfl)
  have e2 := Steps.step e1 (.send rfl (by decide) rfl)
  have e3 := Steps.step e2 (.finish rfl rfl)
  have e4 := Steps.step e3 (.recv (i := 0) (by decide) rfl)
  have e5 := Steps.step e4 (.recv (i := 1) (by decide) rfl)
  have e6 := Steps.step e5 (.wrap (i := 0) (by decide) rfl (by decide +kernel))
  have e7 := Steps.step e6 (.wrap (i := 1) (by decide) rfl (by decide +kernel))
  refine ⟨_, e7, rfl, ?_⟩
  intro i hi
  have : i = 0 ∨ i = 1 := by omega
  rcases this with rfl | rfl <;>
    exact ⟨by simp [St.put, seen], by simp [St.put, seen, LocalErr.toCore]⟩

/-- Of two waiters, whatever happens, at least one does not see the error: two calls that wait for one failing update
never both report, for example, the violated unique key. -/
theorem C93_violated_two (n : Nat) (st : St) (h : Steps 2 .init st) :
    ¬ (seen (.core (.kind n)) (st.slot 0) = some (.kind n) ∧ seen (.core (.kind n)) (st.slot 1) = some (.kind n)) := by
  rintro ⟨h1, h2⟩
  have key : ∀ s, seen (.core (.kind n)) s = some (.kind n) → s = .original := by
    intro s hs
    cases s <;> simp [seen, LocalErr.toCore] at hs ⊢
  have := C93_at_most_one 2 st h 0 1 (by decide) (by decide) (key _ h1) (key _ h2)
  omega

/-- A single waiter that looks when the job's thread is done sees the error. -/
example (n : Nat) : ∃ st, Steps 1 .init st ∧ seen (.core (.kind n)) (st.slot 0) = some (.kind n) := by
  have e0 : Steps 1 .init .init := .refl
  have e1 := Steps.step e0 (.send rfl (by decide) rfl)
  have e2 := Steps.step e1 (.finish rfl rfl)
  have e3 := Steps.step e2 (.recv (i := 0) (by decide) rfl)
  have e4 := Steps.step e3 (.unwrap (i := 0) (by decide) rfl (by decide +kernel))
  exact ⟨_, e4, by simp [St.put, seen, LocalErr.toCore]⟩

end Bonsai.JobErr
