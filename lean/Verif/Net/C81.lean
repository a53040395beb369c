import Verif.Net.Shutdown

/-!
# C81: shutting down: asked, told, timed; listeners
-/
set_option linter.unusedVariables false
set_option linter.unusedSimpArgs false

namespace Bonsai.Net

/-! ## Nobody asked -/

/-- Neither the application nor the operating system asked for a shutdown. -/
def Unasked : DLabel → Prop
  | .tick | .listen | .call | .watch | .loop => True
  | _ => False

/-- The loop has not seen a signal. -/
def SigLoop.waiting : SigLoop → Prop
  | .off | .poll none | .check none | .sleep _ none => True
  | _ => False

theorem DExec.trans {P : DLabel → Prop} {a b c : DSys} (h1 : DExec P a b) (h2 : DExec P b c) : DExec P a c := by
  induction h2 with
  | refl => exact h1
  | step _ hs hp ih => exact .step ih hs hp

theorem DExec.mono {P Q : DLabel → Prop} (hpq : ∀ l, P l → Q l) {a b : DSys} (h : DExec P a b) : DExec Q a b := by
  induction h with
  | refl => exact .refl _
  | step _ hs hp ih => exact .step ih hs (hpq _ hp)

/-- A server that nobody asked to shut down does not: no call of `shutdown` is made, listeners can start, and nothing is
told to anybody. -/
theorem C81_unasked (σ : DSys) (h : DExec Unasked .new σ) :
    σ.calls = [] ∧ σ.sd.value = .running ∧ σ.sd.proto = true ∧ σ.loop.waiting ∧ ∀ w ∈ σ.sd.watchers, ¬ σ.sd.ready w := by
  suffices hi : σ.calls = [] ∧ σ.sd.value = .running ∧ σ.sd.proto = true ∧ σ.loop.waiting ∧ σ.sd.version = 0 ∧
      σ.flag = 0 by
    obtain ⟨a, b, c, d, e, f⟩ := hi
    refine ⟨a, b, c, d, ?_⟩
    intro w _ hr
    simp only [Sd.ready, e] at hr
    omega
  induction h with
  | refl => exact ⟨rfl, rfl, rfl, trivial, rfl, rfl⟩
  | step _ hs hp ih =>
    obtain ⟨a, b, c, d, e, f⟩ := ih
    cases hs <;> simp only [Unasked] at hp
    case tick => exact ⟨a, b, c, d, e, f⟩
    case gStop h => rw [a] at h; cases h
    case gSendFails h _ => rw [a] at h; cases h
    case gSend h _ => rw [a] at h; cases h
    case closed h _ => rw [a] at h; cases h
    case timeout h _ _ => rw [a] at h; cases h
    case fStop h => rw [a] at h; cases h
    case fSend h => rw [a] at h; cases h
    case watcher h =>
      simp only [Sd.watcher, c, if_true, Option.some.injEq] at h
      subst h
      exact ⟨a, b, rfl, d, e, f⟩
    case clone h => exact ⟨a, b, c, d, e, f⟩
    case look h _ => exact ⟨a, b, c, d, e, f⟩
    case drop h => exact ⟨a, b, c, d, e, f⟩
    case listen h => exact ⟨a, b, c, trivial, e, f⟩
    case pollNothing sig h _ =>
      refine ⟨a, b, c, ?_, e, f⟩
      rw [h] at d
      cases sig with
      | none => trivial
      | some i => exact d.elim
    case pollFirst h hf => rw [f] at hf; cases hf
    case pollSecond h hf => rw [f] at hf; cases hf
    case pollTerminate h hf => rw [f] at hf; cases hf
    case checkDone h _ => rw [h] at d; exact d.elim
    case checkNotDone h _ => rw [h] at d; exact d.elim
    case checkShutdown h hd => simp [Sd.shouldShutdown, b] at hd
    case checkRunning h hd => exact ⟨a, b, c, trivial, e, f⟩
    case wake w sig h hw =>
      refine ⟨a, b, c, ?_, e, f⟩
      rw [h] at d
      cases sig with
      | none => trivial
      | some i => exact d.elim
    case forceStart h => rw [h] at d; exact d.elim
    case forceEnd h _ => rw [h] at d; exact d.elim

/-! ## Everybody is told -/

/-- What always holds of the channel and the calls. -/
structure SdInv (σ : DSys) : Prop where
  running : σ.sd.value = .running ↔ σ.sd.version = 0
  proto : σ.sd.proto = true → σ.sd.version = 0
  seen : ∀ w ∈ σ.sd.watchers, w ≤ σ.sd.version
  sending : ∀ c ∈ σ.calls, (∃ t, c = .gSend t) ∨ c = .fSend → σ.sd.proto = false
  waited : ∀ c ∈ σ.calls, (∃ s t, c = .gWait s t) ∨ c = .done →
    σ.sd.proto = false ∧ (σ.sd.value = .running → σ.sd.watchers = [])

theorem mem_set_of {α : Type} {l : List α} {i : Nat} {a c : α} (h : c ∈ l.set i a) : c ∈ l ∨ c = a :=
  List.mem_or_eq_of_mem_set h

theorem receivers_zero {s : Sd} : s.receivers = 0 ↔ s.watchers = [] ∧ s.proto = false := by
  obtain ⟨v, n, p, w⟩ := s
  cases p <;> simp [Sd.receivers, List.length_eq_zero_iff]

theorem send_value {s : Sd} {v : SdValue} (h : s.receivers ≠ 0) :
    s.send v = { s with value := v, version := s.version + 1 } := by simp [Sd.send, h]

/-- Only the calls changed, by calls that are not further than these. -/
theorem SdInv.calls {σ : DSys} (h : SdInv σ) {cs : List Call}
    (hc : ∀ c ∈ cs, c ∈ σ.calls ∨ (∃ t, c = .gStop t) ∨ c = .fStop) (l : SigLoop) :
    SdInv { σ with calls := cs, loop := l } := by
  refine ⟨h.running, h.proto, h.seen, ?_, ?_⟩
  · intro c hm hk
    rcases hc c hm with h1 | ⟨t, rfl⟩ | rfl
    · exact h.sending c h1 hk
    · rcases hk with ⟨t, hk⟩ | hk <;> cases hk
    · rcases hk with ⟨t, hk⟩ | hk <;> cases hk
  · intro c hm hk
    rcases hc c hm with h1 | ⟨t, rfl⟩ | rfl
    · exact h.waited c h1 hk
    · rcases hk with ⟨s, t, hk⟩ | hk <;> cases hk
    · rcases hk with ⟨s, t, hk⟩ | hk <;> cases hk

theorem SdInv.start : SdInv .new := by
  refine ⟨by simp [DSys.new, Sd.new], fun _ => rfl, ?_, ?_, ?_⟩ <;> intro c h <;> cases h

theorem SdInv.step {σ σ' : DSys} {l : DLabel} (hs : DStep σ l σ') (h : SdInv σ) : SdInv σ' := by
  cases hs
  case tick => exact ⟨h.running, h.proto, h.seen, h.sending, h.waited⟩
  case interrupt => exact ⟨h.running, h.proto, h.seen, h.sending, h.waited⟩
  case terminate => exact ⟨h.running, h.proto, h.seen, h.sending, h.waited⟩
  case graceful t =>
    refine h.calls (l := σ.loop) ?_
    intro c hc
    rcases List.mem_append.mp hc with hc | hc
    · exact .inl hc
    · exact .inr (.inl ⟨t, List.mem_singleton.mp hc⟩)
  case force =>
    refine h.calls (l := σ.loop) ?_
    intro c hc
    rcases List.mem_append.mp hc with hc | hc
    · exact .inl hc
    · exact .inr (.inr (List.mem_singleton.mp hc))
  case gStop i t hi =>
    refine ⟨h.running, fun hp => (by cases hp), h.seen, fun _ _ _ => rfl, ?_⟩
    intro c hc hk
    rcases mem_set_of hc with hc | rfl
    · exact ⟨rfl, (h.waited c hc hk).2⟩
    · rcases hk with ⟨s, t, hk⟩ | hk <;> cases hk
  case gSendFails i t hi hr =>
    refine ⟨h.running, h.proto, h.seen, ?_, ?_⟩
    · intro c hc hk
      exact (receivers_zero.mp hr).2
    · intro c hc hk
      exact ⟨(receivers_zero.mp hr).2, fun _ => (receivers_zero.mp hr).1⟩
  case gSend i t hi hr =>
    have hp := h.sending _ (List.mem_of_getElem? hi) (.inl ⟨t, rfl⟩)
    rw [send_value hr]
    refine ⟨by simp, fun h1 => (by rw [hp] at h1; cases h1), ?_, fun _ _ _ => hp, fun _ _ _ => ⟨hp, fun h1 => (by cases h1)⟩⟩
    intro w hw
    have := h.seen w hw
    show w ≤ _ + 1
    omega
  case closed i t₀ t hi hr =>
    refine ⟨h.running, h.proto, h.seen, ?_, ?_⟩
    · intro c hc hk
      exact (receivers_zero.mp hr).2
    · intro c hc hk
      exact ⟨(receivers_zero.mp hr).2, fun _ => (receivers_zero.mp hr).1⟩
  case timeout i t₀ t hi hr ht =>
    refine h.calls (l := σ.loop) ?_
    intro c hc
    rcases mem_set_of hc with hc | rfl
    · exact .inl hc
    · exact .inr (.inr rfl)
  case fStop i hi =>
    refine ⟨h.running, fun hp => (by cases hp), h.seen, fun _ _ _ => rfl, ?_⟩
    intro c hc hk
    rcases mem_set_of hc with hc | rfl
    · exact ⟨rfl, (h.waited c hc hk).2⟩
    · rcases hk with ⟨s, t, hk⟩ | hk <;> cases hk
  case fSend i hi =>
    have hp := h.sending _ (List.mem_of_getElem? hi) (.inr rfl)
    by_cases hr : σ.sd.receivers = 0
    · have he : σ.sd.send .forced = σ.sd := by simp [Sd.send, hr]
      rw [he]
      exact ⟨h.running, h.proto, h.seen, fun _ _ _ => hp, fun _ _ _ => ⟨hp, fun _ => (receivers_zero.mp hr).1⟩⟩
    · rw [send_value hr]
      refine ⟨by simp, fun h1 => (by rw [hp] at h1; cases h1), ?_, fun _ _ _ => hp, fun _ _ _ => ⟨hp, fun h1 => (by cases h1)⟩⟩
      intro w hw
      have := h.seen w hw
      show w ≤ _ + 1
      omega
  case watcher s hw =>
    simp only [Sd.watcher] at hw
    split at hw
    · rename_i hp
      cases hw
      refine ⟨h.running, h.proto, ?_, h.sending, ?_⟩
      · intro w hm
        rcases List.mem_append.mp hm with hm | hm
        · exact h.seen w hm
        · rw [List.mem_singleton.mp hm]; exact Nat.zero_le _
      · intro c hc hk
        have := (h.waited c hc hk).1
        rw [hp] at this
        cases this
    · cases hw
  case clone i w hi =>
    refine ⟨h.running, h.proto, ?_, h.sending, ?_⟩
    · intro u hm
      rcases List.mem_append.mp hm with hm | hm
      · exact h.seen u hm
      · rw [List.mem_singleton.mp hm]; exact h.seen w (List.mem_of_getElem? hi)
    · intro c hc hk
      refine ⟨(h.waited c hc hk).1, fun hv => ?_⟩
      have := (h.waited c hc hk).2 hv
      rw [this] at hi
      cases hi
  case look i w hi hr =>
    refine ⟨h.running, h.proto, ?_, h.sending, ?_⟩
    · intro u hm
      rcases mem_set_of hm with hm | rfl
      · exact h.seen u hm
      · exact Nat.le_refl _
    · intro c hc hk
      refine ⟨(h.waited c hc hk).1, fun hv => ?_⟩
      have := (h.waited c hc hk).2 hv
      rw [this] at hi
      cases hi
  case drop i hi =>
    refine ⟨h.running, h.proto, ?_, h.sending, ?_⟩
    · intro u hm
      exact h.seen u (List.mem_of_mem_eraseIdx hm)
    · intro c hc hk
      refine ⟨(h.waited c hc hk).1, fun hv => ?_⟩
      have := (h.waited c hc hk).2 hv
      rw [this] at hi
      cases hi
  case listen hl => exact ⟨h.running, h.proto, h.seen, h.sending, h.waited⟩
  case pollNothing sig hl hf => exact ⟨h.running, h.proto, h.seen, h.sending, h.waited⟩
  case pollFirst hl hf =>
    refine h.calls ?_ _
    intro c hc
    rcases List.mem_append.mp hc with hc | hc
    · exact .inl hc
    · exact .inr (.inl ⟨_, List.mem_singleton.mp hc⟩)
  case pollSecond i hl hf => exact ⟨h.running, h.proto, h.seen, h.sending, h.waited⟩
  case pollTerminate sig hl hf => exact ⟨h.running, h.proto, h.seen, h.sending, h.waited⟩
  case checkDone i hl hd => exact ⟨h.running, h.proto, h.seen, h.sending, h.waited⟩
  case checkNotDone i hl hd => exact ⟨h.running, h.proto, h.seen, h.sending, h.waited⟩
  case checkShutdown hl hd => exact ⟨h.running, h.proto, h.seen, h.sending, h.waited⟩
  case checkRunning hl hd => exact ⟨h.running, h.proto, h.seen, h.sending, h.waited⟩
  case wake w sig hl hw => exact ⟨h.running, h.proto, h.seen, h.sending, h.waited⟩
  case forceStart hl =>
    refine h.calls ?_ _
    intro c hc
    rcases List.mem_append.mp hc with hc | hc
    · exact .inl hc
    · exact .inr (.inr (List.mem_singleton.mp hc))
  case forceEnd i hl hd => exact ⟨h.running, h.proto, h.seen, h.sending, h.waited⟩

theorem sdinv {P : DLabel → Prop} {σ : DSys} (h : DExec P .new σ) : SdInv σ := by
  induction h with
  | refl => exact .start
  | step _ hs _ ih => exact ih.step hs

/-- Once a call of `shutdown` waits or has returned, no listener or connection gets a new watcher, and every watcher
either has been told of a shutdown or is told as soon as it looks; nothing says that the server is running. -/
theorem C81_told (σ : DSys) (h : DExec (fun _ => True) .new σ) (c : Call) (hc : c ∈ σ.calls)
    (hd : (∃ s t, c = .gWait s t) ∨ c = .done) :
    σ.sd.watcher = none ∧ ∀ w ∈ σ.sd.watchers, σ.sd.value ≠ .running ∧ (w = σ.sd.version ∨ σ.sd.ready w) := by
  have hi := sdinv h
  obtain ⟨hp, hr⟩ := hi.waited c hc hd
  refine ⟨by simp [Sd.watcher, hp], fun w hw => ⟨fun hv => ?_, ?_⟩⟩
  · rw [hr hv] at hw; cases hw
  · have := hi.seen w hw
    simp only [Sd.ready]
    omega

/-- A shutdown that was told is never taken back to running. -/
theorem C81_never_running_again (σ σ' : DSys) (h : DExec (fun _ => True) .new σ) (h' : DExec (fun _ => True) σ σ')
    (hv : σ.sd.value ≠ .running) : σ'.sd.value ≠ .running := by
  have hi := sdinv h
  have : σ.sd.version ≤ σ'.sd.version := by
    clear hv hi h
    induction h' with
    | refl => exact Nat.le_refl _
    | step _ hs _ ih =>
      refine Nat.le_trans ih ?_
      cases hs <;> try exact Nat.le_refl _
      case gSend => simp only [Sd.send]; split <;> simp
      case fSend => simp only [Sd.send]; split <;> simp
      case watcher hw =>
        simp only [Sd.watcher] at hw
        split at hw
        · cases hw; exact Nat.le_refl _
        · cases hw
  have hi' := sdinv (h.trans h')
  intro hr
  rw [hi'.running] at hr
  exact hv (hi.running.mpr (by omega))

/-! ## Not before the timeout -/

/-- The application asks with timeouts of at least `T`, nobody else asks for anything. -/
def GracefulOnly (T : Nat) : DLabel → Prop
  | .tick | .call | .watch => True
  | .graceful t => T ≤ t
  | _ => False

/-- A server that is only asked to shut down gracefully is not forced before the shortest timeout has passed.  Partial:
`listen_for_shutdown` is not called; see `C81_violated_one_interrupt`. -/
theorem C81_forced_only_after_timeout_partial (T : Nat) (σ₀ σ : DSys) (h₀ : σ₀.calls = []) (hv₀ : σ₀.sd.value ≠ .forced)
    (h : DExec (GracefulOnly T) σ₀ σ) (hf : σ.sd.value = .forced) : σ₀.now + T ≤ σ.now := by
  suffices hi : σ₀.now ≤ σ.now ∧ (σ.sd.value = .forced → σ₀.now + T ≤ σ.now) ∧ ∀ c ∈ σ.calls,
      (∀ t, c = .gStop t ∨ c = .gSend t → T ≤ t) ∧ (∀ s t, c = .gWait s t → σ₀.now ≤ s ∧ T ≤ t) ∧
      (c = .fStop ∨ c = .fSend → σ₀.now + T ≤ σ.now) from hi.2.1 hf
  clear hf
  induction h with
  | refl => exact ⟨Nat.le_refl _, fun h => absurd h hv₀, by rw [h₀]; intro c hc; cases hc⟩
  | @step σ' σ'' l _ hs hp ih =>
    obtain ⟨hn, hv, hc⟩ := ih
    have lift : ∀ {i : Nat} {c' : Call}, ((∀ t, c' = .gStop t ∨ c' = .gSend t → T ≤ t) ∧
        (∀ s t, c' = .gWait s t → σ₀.now ≤ s ∧ T ≤ t) ∧ (c' = .fStop ∨ c' = .fSend → σ₀.now + T ≤ σ'.now)) →
        ∀ c ∈ σ'.calls.set i c', (∀ t, c = .gStop t ∨ c = .gSend t → T ≤ t) ∧
          (∀ s t, c = .gWait s t → σ₀.now ≤ s ∧ T ≤ t) ∧ (c = .fStop ∨ c = .fSend → σ₀.now + T ≤ σ'.now) := by
      intro i c' h' c hm
      rcases mem_set_of hm with hm | rfl
      · exact hc c hm
      · exact h'
    cases hs <;> simp only [GracefulOnly] at hp
    case tick n =>
      refine ⟨by show _ ≤ _ + n; omega, fun h => by have := hv h; show _ ≤ _ + n; omega, ?_⟩
      intro c hm
      obtain ⟨h1, h2, h3⟩ := hc c hm
      exact ⟨h1, h2, fun h => by have := h3 h; show _ ≤ _ + n; omega⟩
    case graceful t =>
      refine ⟨hn, hv, ?_⟩
      intro c hm
      rcases List.mem_append.mp hm with hm | hm
      · exact hc c hm
      · rw [List.mem_singleton.mp hm]
        refine ⟨?_, ?_, ?_⟩
        · intro u hu
          rcases hu with hu | hu <;> cases hu
          exact hp
        · intro s u hu; cases hu
        · intro hu; rcases hu with hu | hu <;> cases hu
    case gStop i t hi =>
      refine ⟨hn, hv, lift ⟨?_, ?_, ?_⟩⟩
      · intro u hu
        rcases hu with hu | hu <;> cases hu
        exact (hc _ (List.mem_of_getElem? hi)).1 t (.inl rfl)
      · intro s u hu; cases hu
      · intro hu; rcases hu with hu | hu <;> cases hu
    case gSendFails i t hi hr =>
      refine ⟨hn, hv, lift ⟨?_, ?_, ?_⟩⟩
      · intro u hu; rcases hu with hu | hu <;> cases hu
      · intro s u hu; cases hu
      · intro hu; rcases hu with hu | hu <;> cases hu
    case gSend i t hi hr =>
      refine ⟨hn, ?_, lift ⟨?_, ?_, ?_⟩⟩
      · intro h; rw [send_value hr] at h; cases h
      · intro u hu; rcases hu with hu | hu <;> cases hu
      · intro s u hu
        cases hu
        exact ⟨hn, (hc _ (List.mem_of_getElem? hi)).1 t (.inr rfl)⟩
      · intro hu; rcases hu with hu | hu <;> cases hu
    case closed i t₀ t hi hr =>
      refine ⟨hn, hv, lift ⟨?_, ?_, ?_⟩⟩
      · intro u hu; rcases hu with hu | hu <;> cases hu
      · intro s u hu; cases hu
      · intro hu; rcases hu with hu | hu <;> cases hu
    case timeout i t₀ t hi hr ht =>
      refine ⟨hn, hv, lift ⟨?_, ?_, ?_⟩⟩
      · intro u hu; rcases hu with hu | hu <;> cases hu
      · intro s u hu; cases hu
      · intro _
        have := (hc _ (List.mem_of_getElem? hi)).2.1 t₀ t rfl
        omega
    case fStop i hi =>
      refine ⟨hn, hv, lift ⟨?_, ?_, ?_⟩⟩
      · intro u hu; rcases hu with hu | hu <;> cases hu
      · intro s u hu; cases hu
      · intro _; exact (hc _ (List.mem_of_getElem? hi)).2.2 (.inl rfl)
    case fSend i hi =>
      refine ⟨hn, fun _ => (hc _ (List.mem_of_getElem? hi)).2.2 (.inr rfl), lift ⟨?_, ?_, ?_⟩⟩
      · intro u hu; rcases hu with hu | hu <;> cases hu
      · intro s u hu; cases hu
      · intro hu; rcases hu with hu | hu <;> cases hu
    case watcher s hw =>
      simp only [Sd.watcher] at hw
      split at hw
      · cases hw; exact ⟨hn, hv, hc⟩
      · cases hw
    case clone => exact ⟨hn, hv, hc⟩
    case look => exact ⟨hn, hv, hc⟩
    case drop => exact ⟨hn, hv, hc⟩

/-! ## Violations -/

/-- **C81 is violated**: after a single interrupt the server is forced to shut down 300 milliseconds later, with a
connection that has not been told of the graceful shutdown yet, although the graceful shutdown that the interrupt asks
for waits for 30 seconds: the flag that the signal sets is never cleared, so the next look at it counts as a second
interrupt. -/
theorem C81_violated_one_interrupt :
    ∃ σ₀ σ : DSys, DExec Unasked .new σ₀ ∧ σ₀.sd.watchers = [0] ∧
      DExec (fun l => l ≠ .terminate ∧ l ≠ .force ∧ l ≠ .interrupt) { σ₀ with flag := 1 } σ ∧
      DStep σ₀ .interrupt { σ₀ with flag := 1 } ∧
      σ.sd.value = .forced ∧ σ.now = σ₀.now + 300 ∧ Call.gWait σ₀.now 30000 ∈ σ.calls ∧ σ.sd.watchers = [0] := by
  have e0 := DExec.refl (P := Unasked) .new
  have e1 := e0.step (.watcher (s := ⟨.running, 0, true, [0]⟩) rfl) trivial
  have e2 := e1.step (.listen rfl) trivial
  have f0 := DExec.refl (P := fun l => l ≠ .terminate ∧ l ≠ .force ∧ l ≠ .interrupt)
    ⟨⟨.running, 0, true, [0]⟩, 0, [], 1, .poll none⟩
  have f1 := f0.step (.pollFirst rfl rfl) (by simp)
  have f2 := f1.step (.gStop (i := 0) (t := 30000) rfl) (by simp)
  have f3 := f2.step (.gSend (i := 0) (t := 30000) rfl (by decide)) (by simp)
  have f4 := f3.step (.checkNotDone (i := 0) rfl (by decide)) (by simp)
  have f5 := f4.step (.tick (n := 300)) (by simp)
  have f6 := f5.step (.wake (w := 300) rfl (by decide)) (by simp)
  have f7 := f6.step (.pollSecond (i := 0) rfl rfl) (by simp)
  have f8 := f7.step (.forceStart rfl) (by simp)
  have f9 := f8.step (.fStop (i := 1) rfl) (by simp)
  have f10 := f9.step (.fSend (i := 1) rfl) (by simp)
  exact ⟨_, _, e2, rfl, f10, .interrupt, rfl, rfl, List.mem_cons_self .., rfl⟩

/-- The operating system sends no signal. -/
def NoSignal : DLabel → Prop
  | .interrupt | .terminate => False
  | _ => True

/-- When nobody watches and the value is not that of a forced shutdown, `listen_for_shutdown` never returns, whatever
calls are made, unless a signal comes. -/
theorem unnoticed {σ σ' : DSys} (hr : σ.sd.receivers = 0) (hv : σ.sd.value ≠ .forced) (hf : σ.flag = 0)
    (hl : σ.loop.waiting) (h : DExec NoSignal σ σ') : σ'.loop ≠ .returned := by
  suffices hi : σ'.sd.receivers = 0 ∧ σ'.sd.value ≠ .forced ∧ σ'.flag = 0 ∧ σ'.loop.waiting by
    intro he
    rw [he] at hi
    exact hi.2.2.2
  induction h with
  | refl => exact ⟨hr, hv, hf, hl⟩
  | step _ hs hp ih =>
    obtain ⟨a, b, c, d⟩ := ih
    obtain ⟨a1, a2⟩ := receivers_zero.mp a
    cases hs <;> simp only [NoSignal] at hp
    case tick => exact ⟨a, b, c, d⟩
    case graceful => exact ⟨a, b, c, d⟩
    case force => exact ⟨a, b, c, d⟩
    case gStop h => exact ⟨receivers_zero.mpr ⟨a1, rfl⟩, b, c, d⟩
    case gSendFails h _ => exact ⟨a, b, c, d⟩
    case gSend h hr' => exact absurd a hr'
    case closed h _ => exact ⟨a, b, c, d⟩
    case timeout h _ _ => exact ⟨a, b, c, d⟩
    case fStop h => exact ⟨receivers_zero.mpr ⟨a1, rfl⟩, b, c, d⟩
    case fSend h =>
      have he : ∀ s : Sd, s.receivers = 0 → s.send .forced = s := fun s hs => by simp [Sd.send, hs]
      rw [he _ a]
      exact ⟨a, b, c, d⟩
    case watcher h => simp [Sd.watcher, a2] at h
    case clone h => rw [a1] at h; cases h
    case look h _ => rw [a1] at h; cases h
    case drop h => rw [a1] at h; cases h
    case listen h => exact ⟨a, b, c, trivial⟩
    case pollNothing sig h _ =>
      refine ⟨a, b, c, ?_⟩
      rw [h] at d
      cases sig with
      | none => trivial
      | some i => exact d.elim
    case pollFirst h hf' => rw [c] at hf'; cases hf'
    case pollSecond h hf' => rw [c] at hf'; cases hf'
    case pollTerminate h hf' => rw [c] at hf'; cases hf'
    case checkDone h _ => rw [h] at d; exact d.elim
    case checkNotDone h _ => rw [h] at d; exact d.elim
    case checkShutdown h hd => simp [Sd.shouldShutdown, b] at hd
    case checkRunning h hd => exact ⟨a, b, c, trivial⟩
    case wake w sig h hw =>
      refine ⟨a, b, c, ?_⟩
      rw [h] at d
      cases sig with
      | none => trivial
      | some i => exact d.elim
    case forceStart h => rw [h] at d; exact d.elim
    case forceEnd h _ => rw [h] at d; exact d.elim

/-- **C81 is violated**: after a shutdown that completed, asked for by the application, `listen_for_shutdown` goes on
waiting for ever: when the last watcher had ended, gracefully or because there was none, the value does not become that of
a forced shutdown any more. -/
theorem C81_violated_unnoticed_shutdown :
    (∃ σ, DExec NoSignal .new σ ∧ σ.calls = [.done] ∧ σ.sd.watchers = [] ∧
      ∀ σ', DExec NoSignal σ σ' → σ'.loop ≠ .returned) ∧
    (∃ σ, DExec (fun l => NoSignal l ∧ l ≠ .force) .new σ ∧ σ.calls = [.done] ∧ σ.sd.version = 1 ∧
      ∀ σ', DExec NoSignal σ σ' → σ'.loop ≠ .returned) := by
  refine ⟨?_, ?_⟩
  · have e0 := DExec.refl (P := NoSignal) .new
    have e1 := e0.step (.listen rfl) trivial
    have e2 := e1.step .force trivial
    have e3 := e2.step (.fStop (i := 0) rfl) trivial
    have e4 := e3.step (.fSend (i := 0) rfl) trivial
    exact ⟨_, e4, rfl, rfl, fun σ' h => unnoticed (by rfl) (by decide) (by rfl) (by trivial) h⟩
  · have e0 := DExec.refl (P := fun l => NoSignal l ∧ l ≠ .force) .new
    have e1 := e0.step (.listen rfl) ⟨trivial, by simp⟩
    have e2 := e1.step (.watcher (s := ⟨.running, 0, true, [0]⟩) rfl) ⟨trivial, by simp⟩
    have e3 := e2.step (.graceful (t := 1000)) ⟨trivial, by simp⟩
    have e4 := e3.step (.gStop (i := 0) (t := 1000) rfl) ⟨trivial, by simp⟩
    have e5 := e4.step (.gSend (i := 0) (t := 1000) rfl (by decide)) ⟨trivial, by simp⟩
    have e6 := e5.step (.look (i := 0) (w := 0) rfl (Nat.zero_lt_one)) ⟨trivial, by simp⟩
    have e7 := e6.step (.drop (i := 0) (by decide)) ⟨trivial, by simp⟩
    have e8 := e7.step (.closed (i := 0) (t₀ := 0) (t := 1000) rfl rfl) ⟨trivial, by simp⟩
    exact ⟨_, e8, rfl, rfl, fun σ' h => unnoticed (by rfl) (by decide) (by rfl) (by trivial) h⟩

/-- **C81 is violated**: a forced shutdown is taken back by a later graceful one; a connection that looks only then is told
to shut down gracefully. -/
theorem C81_violated_forced_taken_back :
    ∃ σ σ' : DSys, DExec NoSignal .new σ ∧ σ.sd.value = .forced ∧ σ.sd.watchers = [0] ∧ Call.done ∈ σ.calls ∧
      DExec NoSignal σ σ' ∧ σ'.sd.value = .graceful ∧ σ'.sd.watchers = [0] := by
  have e0 := DExec.refl (P := NoSignal) .new
  have e1 := e0.step (.watcher (s := ⟨.running, 0, true, [0]⟩) rfl) trivial
  have e2 := e1.step .force trivial
  have e3 := e2.step (.fStop (i := 0) rfl) trivial
  have e4 := e3.step (.fSend (i := 0) rfl) trivial
  have f0 := DExec.refl (P := NoSignal) ⟨⟨.forced, 1, false, [0]⟩, 0, [.done], 0, .off⟩
  have f1 := f0.step (.graceful (t := 1000)) trivial
  have f2 := f1.step (.gStop (i := 1) (t := 1000) rfl) trivial
  have f3 := f2.step (.gSend (i := 1) (t := 1000) rfl (by decide)) trivial
  exact ⟨_, _, e4, rfl, rfl, List.mem_cons_self .., f3, rfl, rfl⟩

/-! ## Listeners -/

/-- The connections that arrive before the first event of the kind `stop`. -/
def acceptedBefore (stop : LEvent → Bool) (es : List LEvent) : List Nat :=
  (es.takeWhile fun e => !stop e).filterMap fun
    | .accepted c => some c
    | _ => none

/-- The plain TCP and the QUIC listener handle every connection that arrives before the shutdown, whatever fails in
between, and end with the shutdown, no sooner. -/
theorem C81_listener (es : List LEvent) :
    (listenTcp es).handled = acceptedBefore (· == .shutdown) es ∧
    ((listenTcp es).ended = true ↔ LEvent.shutdown ∈ es) := by
  induction es with
  | nil => exact ⟨rfl, by simp [listenTcp]⟩
  | cons e es ih =>
    cases e with
    | accepted c => exact ⟨by simp [listenTcp, acceptedBefore, ih.1] , by simp [listenTcp, ih.2]⟩
    | failed => exact ⟨by simp [listenTcp, acceptedBefore, ih.1], by simp [listenTcp, ih.2]⟩
    | shutdown => exact ⟨by simp [listenTcp, acceptedBefore], by simp [listenTcp]⟩

/-- The TLS listener, partial: it handles what arrives before the first failure. -/
theorem C81_secure_listener_partial (es : List LEvent) :
    (listenSecureTcp es).handled = acceptedBefore (· == .failed) es := by
  induction es with
  | nil => rfl
  | cons e es ih =>
    cases e with
    | accepted c => simp [listenSecureTcp, acceptedBefore, ih]
    | failed => simp [listenSecureTcp, acceptedBefore]
    | shutdown => simp [listenSecureTcp, acceptedBefore, ih]

/-- **C81 is violated** by the TLS listener: a failure to accept one connection ends it, and the connections that follow
are never handled. -/
theorem C81_violated_secure_listener_fails (es es' : List LEvent) :
    (listenSecureTcp (es ++ .failed :: es')).handled = (listenSecureTcp es).handled ∧
    (listenSecureTcp (es ++ .failed :: es')).ended = true := by
  induction es with
  | nil => exact ⟨rfl, rfl⟩
  | cons e es ih =>
    cases e with
    | accepted c => exact ⟨by simp [listenSecureTcp, ih.1], by simp [listenSecureTcp, ih.2]⟩
    | failed => exact ⟨rfl, rfl⟩
    | shutdown => exact ⟨by simp [listenSecureTcp, ih.1], by simp [listenSecureTcp, ih.2]⟩

/-- **C81 is violated** by the TLS listener: a shutdown does not end it, and it handles connections afterwards. -/
theorem C81_violated_secure_listener_stays (es : List LEvent) (h : LEvent.failed ∉ es) :
    (listenSecureTcp (.shutdown :: es)).ended = false ∧
    (listenSecureTcp (.shutdown :: es)).handled = acceptedBefore (fun _ => false) es := by
  refine ⟨?_, ?_⟩
  · show (listenSecureTcp es).ended = false
    induction es with
    | nil => rfl
    | cons e es ih =>
      cases e with
      | accepted c => exact ih (fun hm => h (List.mem_cons_of_mem _ hm))
      | failed => exact absurd (List.mem_cons_self ..) h
      | shutdown => exact ih (fun hm => h (List.mem_cons_of_mem _ hm))
  · rw [C81_secure_listener_partial]
    have : ∀ es : List LEvent, LEvent.failed ∉ es → acceptedBefore (· == .failed) es = acceptedBefore (fun _ => false) es := by
      intro es
      induction es with
      | nil => intro _; rfl
      | cons e es ih =>
        intro h
        have := ih (fun hm => h (List.mem_cons_of_mem _ hm))
        simp only [acceptedBefore] at this ⊢
        cases e with
        | failed => exact absurd (List.mem_cons_self ..) h
        | accepted c => simp [this]
        | shutdown => simp [this]
    have h2 : LEvent.failed ∉ (LEvent.shutdown :: es) := by simp [h]
    rw [this _ h2]
    simp [acceptedBefore]

/-! ## Cases that meet the hypotheses -/

/-- A connection that does not end within the timeout of a graceful shutdown. -/
example : ∃ σ, DExec (GracefulOnly 1000) .new σ ∧ σ.sd.value = .forced ∧ σ.now = 1000 ∧ σ.sd.watchers = [1] := by
  have e0 := DExec.refl (P := GracefulOnly 1000) .new
  have e1 := e0.step (.watcher (s := ⟨.running, 0, true, [0]⟩) rfl) trivial
  have e2 := e1.step (.graceful (t := 1000)) (Nat.le_refl _)
  have e3 := e2.step (.gStop (i := 0) (t := 1000) rfl) trivial
  have e4 := e3.step (.gSend (i := 0) (t := 1000) rfl (by decide)) trivial
  have e5 := e4.step (.look (i := 0) (w := 0) rfl (Nat.zero_lt_one)) trivial
  have e6 := e5.step (.tick (n := 1000)) trivial
  have e7 := e6.step (.timeout (i := 0) (t₀ := 0) (t := 1000) rfl (by decide) (by decide)) trivial
  have e8 := e7.step (.fStop (i := 0) rfl) trivial
  have e9 := e8.step (.fSend (i := 0) rfl) trivial
  exact ⟨_, e9, rfl, rfl, rfl⟩

/-- A call that waits, with one watcher that was told and one that was not. -/
example : ∃ σ, DExec (fun _ => True) .new σ ∧ Call.gWait 0 1000 ∈ σ.calls ∧ σ.sd.watchers = [1, 0] := by
  have e0 := DExec.refl (P := fun _ => True) .new
  have e1 := e0.step (.watcher (s := ⟨.running, 0, true, [0]⟩) rfl) trivial
  have e2 := e1.step (.clone (i := 0) (w := 0) rfl) trivial
  have e3 := e2.step (.graceful (t := 1000)) trivial
  have e4 := e3.step (.gStop (i := 0) (t := 1000) rfl) trivial
  have e5 := e4.step (.gSend (i := 0) (t := 1000) rfl (by decide)) trivial
  have e6 := e5.step (.look (i := 0) (w := 0) rfl (Nat.zero_lt_one)) trivial
  exact ⟨_, e6, List.mem_cons_self .., rfl⟩

example : listenTcp [.accepted 1, .failed, .accepted 2, .shutdown, .accepted 3] = ⟨[1, 2], true⟩ := rfl

example : listenSecureTcp [.accepted 1, .failed, .accepted 2] = ⟨[1], true⟩ := rfl

end Bonsai.Net
