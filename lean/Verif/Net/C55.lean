import Verif.Net.Server

/-!
# C55: the limit of simultaneous requests
-/
set_option linter.unusedSimpArgs false
set_option linter.unusedVariables false

namespace Bonsai.Net

/-- Requests whose slot is not free. -/
def counted (s : Srv) : Nat := s.tasks.countP fun p => !decide (p.2 = .decremented)

/-- The slot the loop has taken. -/
def Loop.taken : Loop → Nat
  | .recv => 1
  | .stopped => 1
  | _ => 0

structure SInv (s : Srv) : Prop where
  counter : s.counter = counted s + s.loop.taken
  limit : s.counter ≤ s.limit
  cas : ∀ n, s.loop = .cas n → n < s.limit
  wake : s.loop = .wait → s.permit = false → s.counter = s.limit ∨ ∃ u, (u, Phase.decremented) ∈ s.tasks

theorem counted_mid (l₁ l₂ : List (Nat × Phase)) (u : Nat) (p : Phase) :
    (l₁ ++ (u, p) :: l₂).countP (fun p => !decide (p.2 = .decremented)) =
      l₁.countP (fun p => !decide (p.2 = .decremented)) + l₂.countP (fun p => !decide (p.2 = .decremented)) +
        (if p = .decremented then 0 else 1) := by
  simp only [List.countP_append, List.countP_cons]
  by_cases h : p = .decremented <;> simp [h] <;> omega

theorem mem_moved {l₁ l₂ : List (Nat × Phase)} {u v : Nat} {p q : Phase} (hp : p ≠ .decremented)
    (h : (v, Phase.decremented) ∈ l₁ ++ (u, p) :: l₂) : (v, Phase.decremented) ∈ l₁ ++ (u, q) :: l₂ := by
  simp only [List.mem_append, List.mem_cons, Prod.mk.injEq] at h ⊢
  rcases h with h | ⟨_, h⟩ | h
  · exact .inl h
  · exact absurd h.symm hp
  · exact .inr (.inr h)

theorem sinv_step {t : Transport} {s s' : Srv} {l : SLabel} (hi : SInv s) (h : SStep t s l s') : SInv s' := by
  obtain ⟨hc, hl, hcas, hwake⟩ := hi
  cases h with
  | loadFull hl' h =>
    rw [hl'] at hc
    exact ⟨hc, hl, fun n h => (by cases h), fun _ _ => .inl h⟩
  | loadFree hl' h =>
    rw [hl'] at hc
    refine ⟨hc, hl, ?_, fun h => by cases h⟩
    intro n hn
    cases hn
    dsimp only
    omega
  | notified hl' h =>
    rw [hl'] at hc
    exact ⟨hc, hl, fun n h => (by cases h), fun h => (by cases h)⟩
  | casOk hl' h =>
    have := hcas _ hl'
    rw [hl'] at hc
    refine ⟨?_, ?_, fun n h => (by cases h), fun h => (by cases h)⟩
    · simp only [counted, Loop.taken] at hc ⊢; omega
    · dsimp only; omega
  | casFails hl' h =>
    rw [hl'] at hc
    exact ⟨hc, hl, fun n h => (by cases h), fun h => (by cases h)⟩
  | receive hl' =>
    rw [hl'] at hc
    refine ⟨?_, hl, fun n h => (by cases h), fun h => (by cases h)⟩
    simp only [counted, Loop.taken, List.countP_cons] at hc ⊢
    simp
    omega
  | stop hl' =>
    rw [hl'] at hc
    exact ⟨hc, hl, fun n h => (by cases h), fun h => (by cases h)⟩
  | taken h =>
    refine ⟨?_, hl, hcas, ?_⟩
    · simp only [counted, h, counted_mid] at hc ⊢; simpa using hc
    · intro h1 h2
      rcases hwake h1 h2 with h3 | ⟨v, h3⟩
      · exact .inl h3
      · rw [h] at h3; exact .inr ⟨v, mem_moved (by simp) h3⟩
  | result h =>
    refine ⟨?_, hl, hcas, ?_⟩
    · simp only [counted, h, counted_mid] at hc ⊢; simpa using hc
    · intro h1 h2
      rcases hwake h1 h2 with h3 | ⟨v, h3⟩
      · exact .inl h3
      · rw [h] at h3; exact .inr ⟨v, mem_moved (by simp) h3⟩
  | panic h =>
    refine ⟨?_, hl, hcas, ?_⟩
    · simp only [counted, h, counted_mid] at hc ⊢; simpa using hc
    · intro h1 h2
      rcases hwake h1 h2 with h3 | ⟨v, h3⟩
      · exact .inl h3
      · rw [h] at h3; exact .inr ⟨v, mem_moved (by simp) h3⟩
  | respond h =>
    refine ⟨?_, hl, hcas, ?_⟩
    · simp only [counted, h, counted_mid] at hc ⊢; simpa using hc
    · intro h1 h2
      rcases hwake h1 h2 with h3 | ⟨v, h3⟩
      · exact .inl h3
      · rw [h] at h3; exact .inr ⟨v, mem_moved (by simp) h3⟩
  | decrement h =>
    rename_i l₁ l₂ u
    refine ⟨?_, ?_, hcas, ?_⟩
    · simp only [counted, h, counted_mid] at hc ⊢
      simp at hc ⊢
      omega
    · dsimp only; omega
    · intro h1 h2
      exact .inr ⟨u, by simp⟩
  | notify h =>
    refine ⟨?_, hl, hcas, fun _ h => (by cases h)⟩
    simp only [counted, h, counted_mid] at hc ⊢
    simpa using hc
  | write hw h => exact ⟨hc, hl, hcas, hwake⟩
  | shutdown => exact ⟨hc, hl, hcas, hwake⟩
  | writerStops ht hg hw => exact ⟨hc, hl, hcas, hwake⟩

theorem sinv_exec {t : Transport} {P : SLabel → Prop} {s s' : Srv} (hi : SInv s) (h : SExec t P s s') : SInv s' := by
  induction h with
  | refl => exact hi
  | step _ hs _ ih => exact sinv_step ih hs

theorem limit_exec {t : Transport} {P : SLabel → Prop} {s s' : Srv} (h : SExec t P s s') : s'.limit = s.limit := by
  induction h with
  | refl => rfl
  | step _ hs _ ih => rw [← ih]; cases hs <;> rfl

theorem sinv_new (limit : Nat) : SInv (.new limit) :=
  ⟨rfl, Nat.zero_le _, fun n h => (by cases h), fun h => (by cases h)⟩

theorem sinv_reachable {t : Transport} {limit : Nat} {s : Srv} (h : SReachable t limit s) : SInv s ∧ s.limit = limit :=
  ⟨sinv_exec (sinv_new limit) h, limit_exec h⟩

theorem inProcess_le (s : Srv) : inProcess s ≤ counted s := by
  unfold inProcess counted
  refine List.countP_mono_left ?_
  rintro ⟨u, p⟩ _ h
  cases p <;> simp at h ⊢

/-! ## Theorems -/

/-- **C55.** At any time at most `limit` requests of a connection are in process. -/
theorem C55_limit {t : Transport} {limit : Nat} {s : Srv} (h : SReachable t limit s) : inProcess s ≤ limit := by
  obtain ⟨hi, hl⟩ := sinv_reachable h
  have := inProcess_le s
  have := hi.counter
  have := hi.limit
  omega

/-- And while it waits for another one, one less. -/
theorem C55_limit_receiving {t : Transport} {limit : Nat} {s : Srv} (h : SReachable t limit s) (hr : s.loop = .recv) :
    inProcess s < limit := by
  obtain ⟨hi, hl⟩ := sinv_reachable h
  have h1 := inProcess_le s
  have h2 := hi.counter
  have := hi.limit
  rw [hr] at h2
  simp only [Loop.taken] at h2
  omega

/-- How far the tasks are that have their response. -/
theorem settled {s : Srv} (h : ∀ u, (u, Phase.responded) ∉ s.tasks) : counted s = inProcess s := by
  unfold counted inProcess
  refine List.countP_congr ?_
  rintro ⟨u, p⟩ hm
  cases p with
  | responded => exact absurd hm (h u)
  | _ => simp

/-- One by one, the tasks whose response is in the channel free their slots. -/
theorem free_slots {t : Transport} : ∀ (n : Nat) (s : Srv), s.tasks.countP (fun p => decide (p.2 = .responded)) = n →
    ∃ s', SExec t (· = .internal) s s' ∧ (∀ u, (u, Phase.responded) ∉ s'.tasks) ∧ inProcess s' = inProcess s ∧
      s'.loop = s.loop
  | 0, s, hn => by
    refine ⟨s, .refl s, ?_, rfl, rfl⟩
    intro u hu
    have := List.countP_eq_zero.mp hn _ hu
    simp at this
  | n + 1, s, hn => by
    have h1 : 0 < s.tasks.countP (fun p => decide (p.2 = .responded)) := by omega
    obtain ⟨⟨u, p⟩, hm, hp⟩ := List.countP_pos_iff.mp h1
    simp at hp
    subst hp
    obtain ⟨l₁, l₂, hl⟩ := List.append_of_mem hm
    have hs : SStep t s .internal { s with tasks := l₁ ++ (u, .decremented) :: l₂, counter := s.counter - 1 } :=
      .decrement hl
    obtain ⟨s', he, h2, h3, h4⟩ := free_slots (t := t) n
      { s with tasks := l₁ ++ (u, .decremented) :: l₂, counter := s.counter - 1 } (by
        rw [hl] at hn
        simp only [List.countP_append, List.countP_cons] at hn ⊢
        simp at hn ⊢
        omega)
    refine ⟨s', ?_, h2, ?_, h4⟩
    · clear hn h1 hm h2 h3 h4
      induction he with
      | refl => exact .step (.refl s) hs rfl
      | step _ hs' hp ih => exact .step ih hs' hp
    · rw [h3]
      unfold inProcess
      simp only [hl, List.countP_append, List.countP_cons]
      simp

theorem SExec.trans {t : Transport} {P : SLabel → Prop} {a b c : Srv} (h : SExec t P a b) (h' : SExec t P b c) :
    SExec t P a c := by
  induction h' with
  | refl => exact h
  | step _ hs hp ih => exact .step ih hs hp

/-- **C55.** A finished request frees its slot: whenever fewer requests are in process than the limit and the loop
has not returned, the connection comes to accept another request by itself, without any request in process having
to finish first.  In particular no notification is lost. -/
theorem C55_slot_freed {t : Transport} {limit : Nat} {s : Srv} (h : SReachable t limit s) (hfree : inProcess s < limit)
    (hl : s.loop ≠ .stopped) : ∃ s', SExec t (· = .internal) s s' ∧ s'.loop = .recv ∧ inProcess s' = inProcess s := by
  obtain ⟨hi, hlim⟩ := sinv_reachable h
  by_cases hrecv : s.loop = .recv
  · exact ⟨s, .refl s, hrecv, rfl⟩
  obtain ⟨s₁, he₁, hset, hin, hloop⟩ := free_slots (t := t) _ s rfl
  have hi₁ := sinv_exec hi he₁
  have hlim₁ : s₁.limit = limit := (limit_exec he₁).trans hlim
  have hcnt := settled hset
  have hcounter := hi₁.counter
  have htaken : s₁.loop.taken = 0 := by
    rw [hloop]
    generalize s.loop = lp at hrecv hl
    cases lp <;> first | rfl | contradiction
  have hlt : s₁.counter < s₁.limit := by omega
  -- From `load` it is two steps.
  have hload : ∀ s₂ : Srv, s₂.loop = .load → s₂.counter < s₂.limit → inProcess s₂ = inProcess s →
      ∃ s', SExec t (· = .internal) s₂ s' ∧ s'.loop = .recv ∧ inProcess s' = inProcess s := by
    intro s₂ h2 h3 h4
    have a : SStep t s₂ .internal { s₂ with loop := .cas s₂.counter } := .loadFree h2 (by omega)
    exact ⟨_, .step (.step (.refl _) a rfl) (.casOk (n := s₂.counter) rfl rfl) rfl, rfl, h4⟩
  have hfin : ∀ s₂ : Srv, SExec t (· = .internal) s₁ s₂ → s₂.loop = .load → s₂.counter < s₂.limit →
      inProcess s₂ = inProcess s → ∃ s', SExec t (· = .internal) s s' ∧ s'.loop = .recv ∧ inProcess s' = inProcess s := by
    intro s₂ he h2 h3 h4
    obtain ⟨s', h5, h6, h7⟩ := hload s₂ h2 h3 h4
    exact ⟨s', (he₁.trans he).trans h5, h6, h7⟩
  cases hlp : s₁.loop with
  | load => exact hfin s₁ (.refl _) hlp hlt hin
  | recv => exact absurd (hloop ▸ hlp) hrecv
  | stopped => exact absurd (hloop ▸ hlp) hl
  | cas n =>
    by_cases hn : s₁.counter = n
    · exact ⟨_, .step he₁ (.casOk hlp hn) rfl, rfl, hin⟩
    · exact hfin { s₁ with loop := .load } (.step (.refl _) (.casFails hlp hn) rfl) rfl hlt hin
  | wait =>
    cases hp : s₁.permit with
    | true => exact hfin { s₁ with loop := .load, permit := false } (.step (.refl _) (.notified hlp hp) rfl) rfl hlt hin
    | false =>
      rcases hi₁.wake hlp hp with h5 | ⟨u, hu⟩
      · omega
      · obtain ⟨l₁, l₂, hl₁⟩ := List.append_of_mem hu
        refine hfin { s₁ with tasks := l₁ ++ l₂, loop := .load, permit := false }
          (.step (.step (.refl _) (.notify hl₁) rfl) (.notified hlp rfl) rfl) rfl hlt ?_
        rw [← hin]
        unfold inProcess
        simp only [hl₁, List.countP_append, List.countP_cons]
        simp

end Bonsai.Net
