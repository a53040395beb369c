import Verif.Remote.Model

/-!
# C66: a remote request runs with the permissions of a session of its own connection
-/
set_option linter.unusedSimpArgs false
set_option linter.unusedVariables false

namespace Bonsai.Remote
open Bonsai Bonsai.Names Bonsai.Ident

/-- A login registers one new session under the next id and returns it; anything else registers
nothing. -/
theorem login_effect (H : Hashes) (st : St) (h : Handle) (r : Request) (e : Event)
    (he : r.event h = some e) :
    (∀ h', (st.next H e).1 = .ok h' → ∃ s, h'.effective = some s ∧ s.id = some (st.lastId + 1) ∧
      (st.next H e).2.lastId = st.lastId + 1 ∧
      ∀ p ∈ (st.next H e).2.sessions, p ∈ st.sessions ∨ p = (st.lastId + 1, s)) ∧
    (∀ x, (st.next H e).1 = .error x → (st.next H e).2.lastId = st.lastId ∧
      ∀ p ∈ (st.next H e).2.sessions, p ∈ st.sessions) := by
  have reg : ∀ (st₀ : St) (auth : Auth) (p : Permissions), st₀.lastId = st.lastId →
      (∀ q ∈ st₀.sessions, q ∈ st.sessions) →
      ∃ s, (st₀.register auth p).1.effective = some s ∧ s.id = some (st.lastId + 1) ∧
        (st₀.register auth p).2.lastId = st.lastId + 1 ∧
        ∀ q ∈ (st₀.register auth p).2.sessions, q ∈ st.sessions ∨ q = (st.lastId + 1, s) := by
    intro st₀ auth p hl hs
    refine ⟨_, rfl, by simp [hl], by simp [St.register, hl], ?_⟩
    intro q hq
    simp only [St.register, List.mem_cons, hl] at hq
    rcases hq with hq | hq
    · right; rw [hq, hl]
    · exact .inl (hs q hq)
  have self := fun auth p => reg st auth p rfl (fun _ hq => hq)
  have ok_err : ∀ (x : Except Err (Handle × St)), (∀ q, x = .ok q → ∃ auth p, q = st.register auth p) →
      (∀ h', (orSame st x).1 = .ok h' → ∃ s, h'.effective = some s ∧ s.id = some (st.lastId + 1) ∧
        (orSame st x).2.lastId = st.lastId + 1 ∧
        ∀ p ∈ (orSame st x).2.sessions, p ∈ st.sessions ∨ p = (st.lastId + 1, s)) ∧
      (∀ y, (orSame st x).1 = .error y → (orSame st x).2.lastId = st.lastId ∧
        ∀ p ∈ (orSame st x).2.sessions, p ∈ st.sessions) := by
    intro x hx
    cases x with
    | error y => exact ⟨fun h' hh => (by cases hh), fun _ _ => ⟨rfl, fun p hp => hp⟩⟩
    | ok q =>
      obtain ⟨auth, p, rfl⟩ := hx q rfl
      refine ⟨fun h' hh => ?_, fun y hy => (by cases hy)⟩
      cases hh
      exact self auth p
  cases r with
  | password u pw =>
    cases he
    refine ok_err _ fun q hq => ?_
    unfold St.authenticatePassword at hq
    split at hq
    · cases hq
    · cases hq
    · split at hq
      · split at hq
        · cases hq
        · split at hq
          · cases hq; exact ⟨_, _, rfl⟩
          · cases hq
      · cases hq
  | assumeIdentity i =>
    cases he
    refine ok_err _ fun q hq => ?_
    unfold St.assumeIdentity at hq
    cases i with
    | user ref =>
      simp only at hq
      split at hq
      · cases hq
      · cases hq
      · split at hq
        · cases hq; exact ⟨_, _, rfl⟩
        · cases hq
    | role ref =>
      simp only at hq
      split at hq
      · cases hq
      · cases hq
      · split at hq
        · cases hq; exact ⟨_, _, rfl⟩
        · cases hq
  | beginToken id t th n n' no =>
    cases he
    refine ok_err _ fun q hq => ?_
    unfold St.beginToken at hq
    split at hq
    · split at hq
      · cases hq
      · split at hq
        · cases hq
        · split at hq
          · cases hq; exact ⟨_, _, rfl⟩
          · cases hq
    · cases hq
  | finishToken hash =>
    cases he
    simp only [St.next]
    rcases finish_cases H st h hash with ⟨e, hr, -⟩ | ⟨sid, e, -, hr⟩ | ⟨sid, auth, p, -, hr⟩
    · rw [hr]; exact ⟨fun h' hh => (by cases hh), fun _ _ => ⟨rfl, fun p hp => hp⟩⟩
    · rw [hr]; exact ⟨fun h' hh => (by cases hh), fun _ _ => ⟨rfl, fun p hp => (without_mem hp).1⟩⟩
    · rw [hr]
      refine ⟨fun h' hh => ?_, fun y hy => (by cases hy)⟩
      cases hh
      exact reg (st.without sid) auth p rfl (fun q hq => (without_mem hq).1)
  | logOut i => cases he
  | other b => cases he

/-- The storage knows the session with this id as `s`, or no longer. -/
def Good (st : St) (i : Nat) (s : Session) : Prop :=
  s.id = some i ∧ i ≤ st.lastId ∧ ∀ a, (i, a) ∈ st.sessions → a = s

/-- What holds in every reachable state. -/
structure Inv (tr : List Label) (σ : Srv) : Prop where
  known : KnownIds σ.st
  held : ∀ c, ∀ p ∈ σ.sessions c, Good σ.st p.1 p.2 ∧ LoggedIn tr c p.2
  queued : ∀ q ∈ σ.waiting, q.session = σ.defaultSession ∨
    ∃ i, q.sessionId = some i ∧ Good σ.st i q.session ∧ LoggedIn tr q.connection q.session
  unique : ∀ c, ∀ p ∈ σ.sessions c, ∀ q ∈ σ.sessions c, p.1 = q.1 → p = q
  kept : ∀ c ∈ σ.connected, ∀ s, LoggedIn tr c s → ∀ i, s.id = some i → i ≤ σ.st.lastId ∧
    (¬ LoggedOut tr c i → (i, s) ∈ σ.sessions c)
  conns : (∀ c ∈ σ.connected, c < σ.connections) ∧ (∀ q ∈ σ.waiting, q.connection < σ.connections) ∧
    ∀ c s, LoggedIn tr c s → c < σ.connections
  numbers : ∀ q ∈ σ.waiting, q.number < σ.received
  distinct : ∀ q ∈ σ.waiting, ∀ q' ∈ σ.waiting, q.number = q'.number → q = q'

theorem LoggedIn.mono {tr : List Label} {c : Nat} {s : Session} (h : LoggedIn tr c s) (l : Label) :
    LoggedIn (tr ++ [l]) c s := by
  obtain ⟨n, sid, r, hh, h', hm, he⟩ := h
  exact ⟨n, sid, r, hh, h', List.mem_append_left _ hm, he⟩

theorem LoggedOut.mono {tr : List Label} {c : Nat} {i : Nat} (h : LoggedOut tr c i) (l : Label) :
    LoggedOut (tr ++ [l]) c i := by
  obtain ⟨n, sid, hh, got, hm⟩ := h
  exact ⟨n, sid, hh, got, List.mem_append_left _ hm⟩

theorem loggedIn_snoc {tr : List Label} {l : Label} {c : Nat} {s : Session}
    (h : LoggedIn (tr ++ [l]) c s) :
    LoggedIn tr c s ∨ ∃ n sid r hh h', l = .ran n c sid r hh (some h') ∧ h'.effective = some s := by
  obtain ⟨n, sid, r, hh, h', hm, he⟩ := h
  rcases List.mem_append.mp hm with hm | hm
  · exact .inl ⟨n, sid, r, hh, h', hm, he⟩
  · rw [List.mem_singleton] at hm
    exact .inr ⟨n, sid, r, hh, h', hm.symm, he⟩

theorem lookup_cases {tr : List Label} {σ : Srv} (hi : Inv tr σ) (c : Nat) (sid : Option Nat) :
    σ.lookup c sid = σ.defaultSession ∨
      ∃ i, sid = some i ∧ (i, σ.lookup c sid) ∈ σ.sessions c := by
  unfold Srv.lookup
  split
  · exact .inl rfl
  · rename_i i
    split
    · rename_i p hp
      have hm := List.mem_of_find?_eq_some hp
      have he := List.find?_some hp
      simp only [decide_eq_true_eq] at he
      refine .inr ⟨i, rfl, ?_⟩
      rw [← he]
      exact hm
    · exact .inl rfl

/-- The invariant with another trace, when no session was obtained and none ended. -/
theorem Inv.quiet {tr : List Label} {σ : Srv} (hi : Inv tr σ) (l : Label)
    (hl : ∀ n c sid r h h', l ≠ .ran n c sid r h (some h')) : Inv (tr ++ [l]) σ := by
  have back : ∀ {c s}, LoggedIn (tr ++ [l]) c s → LoggedIn tr c s := by
    intro c s h
    rcases loggedIn_snoc h with h | ⟨n, sid, r, hh, h', he, -⟩
    · exact h
    · exact (hl _ _ _ _ _ _ he).elim
  refine ⟨hi.known, fun c p hp => ⟨(hi.held c p hp).1, (hi.held c p hp).2.mono l⟩, ?_, hi.unique, ?_, ?_,
    hi.numbers, hi.distinct⟩
  · intro q hq
    rcases hi.queued q hq with h | ⟨i, h1, h2, h3⟩
    · exact .inl h
    · exact .inr ⟨i, h1, h2, h3.mono l⟩
  · intro c hc s hs i hid
    obtain ⟨k1, k2⟩ := hi.kept c hc s (back hs) i hid
    exact ⟨k1, fun hn => k2 fun ho => hn (ho.mono l)⟩
  · exact ⟨hi.conns.1, hi.conns.2.1, fun c s h => hi.conns.2.2 c s (back h)⟩

theorem setAt_self {β : Type} (f : Nat → β) (a : Nat) (b : β) : setAt f a b a = b := by simp [setAt]

theorem setAt_ne {β : Type} (f : Nat → β) {a x : Nat} (b : β) (h : x ≠ a) : setAt f a b x = f x := by
  simp [setAt, h]

/-- Running a waiting request keeps the invariant. -/
theorem Inv.handle {H : Hashes} {tr : List Label} {σ : Srv} (hi : Inv tr σ) (n c : Nat)
    (sid : Option Nat) (h : Handle) (r : Request) (hc : c < σ.connections) :
    Inv (tr ++ [.ran n c sid r h (σ.handle H c h r).1]) (σ.handle H c h r).2 := by
  have quiet : ∀ (st' : St), (∀ i, r = .logOut i → False) → st'.lastId = σ.st.lastId →
      (∀ p ∈ st'.sessions, p ∈ σ.st.sessions) →
      Inv (tr ++ [.ran n c sid r h none]) { σ with st := st' } := by
    intro st' _ hl hs
    have good : ∀ {i s}, Good σ.st i s → Good st' i s := fun {i s} g =>
      ⟨g.1, by rw [hl]; exact g.2.1, fun a ha => g.2.2 a (hs _ ha)⟩
    have h0 := hi.quiet (.ran n c sid r h none) (by intros; simp)
    refine ⟨?_, fun c p hp => ⟨good (h0.held c p hp).1, (h0.held c p hp).2⟩, ?_, h0.unique, ?_, h0.conns,
      h0.numbers, h0.distinct⟩
    · intro q hq
      rw [show ({ σ with st := st' } : Srv).st.lastId = σ.st.lastId from hl]
      exact hi.known q (hs q hq)
    · intro q hq
      rcases h0.queued q hq with h | ⟨i, h1, h2, h3⟩
      · exact .inl h
      · exact .inr ⟨i, h1, good h2, h3⟩
    · intro c hc s hsn i hid
      obtain ⟨k1, k2⟩ := h0.kept c hc s hsn i hid
      exact ⟨by rw [show ({ σ with st := st' } : Srv).st.lastId = σ.st.lastId from hl]; exact k1, k2⟩
  by_cases hlog : ∃ i, r = .logOut i
  · obtain ⟨i, rfl⟩ := hlog
    simp only [Srv.handle]
    have h0 := hi.quiet (.ran n c sid (.logOut i) h none) (by intros; simp)
    have sub : ∀ c', ∀ p ∈ (σ.logOut c i).sessions c', p ∈ σ.sessions c' := by
      intro c' p hp
      simp only [Srv.logOut] at hp
      by_cases he : c' = c
      · subst he
        rw [setAt_self] at hp
        exact (List.mem_filter.mp hp).1
      · rw [setAt_ne _ _ he] at hp; exact hp
    refine ⟨h0.known, fun c' p hp => h0.held c' p (sub c' p hp), h0.queued,
      fun c' p hp q hq => h0.unique c' p (sub _ _ hp) q (sub _ _ hq), ?_, h0.conns, h0.numbers, h0.distinct⟩
    intro c' hc' s hs j hj
    obtain ⟨k1, k2⟩ := h0.kept c' hc' s hs j hj
    refine ⟨k1, fun hn => ?_⟩
    have hm := k2 hn
    simp only [Srv.logOut]
    by_cases he : c' = c
    · subst he
      rw [setAt_self, List.mem_filter]
      refine ⟨hm, ?_⟩
      simp only [ne_eq, decide_eq_true_eq]
      intro hji
      subst hji
      exact hn ⟨n, sid, h, none, List.mem_append_right _ (by simp)⟩
    · rw [setAt_ne _ _ he]; exact hm
  · have hnl : ∀ i, r = .logOut i → False := fun i e => hlog ⟨i, e⟩
    have hdef : σ.handle H c h r = (match r.event h with
        | none => (none, σ)
        | some e =>
          match (σ.st.next H e).1 with
          | .ok h' => (some h', Srv.loggedInAs { σ with st := (σ.st.next H e).2 } c h')
          | .error _ => (none, { σ with st := (σ.st.next H e).2 })) := by
      cases r <;> first | rfl | exact absurd rfl (hnl _)
    rw [hdef]
    cases he : r.event h with
    | none => exact quiet σ.st hnl rfl fun p hp => hp
    | some e =>
      obtain ⟨h1, h2⟩ := login_effect H σ.st h r e he
      dsimp only
      cases hres : (σ.st.next H e).1 with
      | error x =>
        obtain ⟨hl, hs⟩ := h2 x hres
        exact quiet _ hnl hl hs
      | ok h' =>
        obtain ⟨s, hs, hid, hl, hss⟩ := h1 h' hres
        generalize (σ.st.next H e).2 = st' at hl hss
        dsimp only
        -- the new trace and state
        generalize hlab : Label.ran n c sid r h (some h') = l
        have hin : LoggedIn (tr ++ [l]) c s :=
          ⟨n, sid, r, h, h', List.mem_append_right _ (by simp [hlab]), hs⟩
        have hsess : Srv.loggedInAs { σ with st := st' } c h' = { σ with
            st := st'
            sessions := setAt σ.sessions c
              ((σ.st.lastId + 1, s) :: (σ.sessions c).filter fun p => p.1 ≠ σ.st.lastId + 1) } := by
          simp only [Srv.loggedInAs, hs, hid]
        rw [hsess]
        have good : ∀ {i s}, Good σ.st i s → Good st' i s := by
          intro i s g
          refine ⟨g.1, by have := g.2.1; omega, fun a ha => ?_⟩
          rcases hss _ ha with hm | hm
          · exact g.2.2 a hm
          · have : i = σ.st.lastId + 1 := congrArg Prod.fst hm
            have := g.2.1
            omega
        have gnew : Good st' (σ.st.lastId + 1) s := by
          refine ⟨hid, by omega, fun a ha => ?_⟩
          rcases hss _ ha with hm | hm
          · have : σ.st.lastId + 1 ≤ σ.st.lastId := hi.known _ hm
            omega
          · exact congrArg Prod.snd hm
        have mem : ∀ c' p, p ∈ setAt σ.sessions c ((σ.st.lastId + 1, s) ::
              (σ.sessions c).filter fun p => p.1 ≠ σ.st.lastId + 1) c' →
            p ∈ σ.sessions c' ∨ (c' = c ∧ p = (σ.st.lastId + 1, s)) := by
          intro c' p hp
          by_cases hc' : c' = c
          · subst hc'
            rw [setAt_self, List.mem_cons] at hp
            rcases hp with hp | hp
            · exact .inr ⟨rfl, hp⟩
            · exact .inl (List.mem_filter.mp hp).1
          · rw [setAt_ne _ _ hc'] at hp; exact .inl hp
        have old : ∀ c' p, p ∈ σ.sessions c' → p.1 ≤ σ.st.lastId := fun c' p hp => (hi.held c' p hp).1.2.1
        refine ⟨?_, ?_, ?_, ?_, ?_, ?_, hi.numbers, hi.distinct⟩
        · intro q hq
          show q.1 ≤ st'.lastId
          rcases hss q hq with hm | hm
          · have := hi.known q hm; omega
          · rw [hm]; simp only; omega
        · intro c' p hp
          rcases mem c' p hp with hp | ⟨rfl, rfl⟩
          · exact ⟨good (hi.held c' p hp).1, (hi.held c' p hp).2.mono l⟩
          · exact ⟨gnew, hin⟩
        · intro q hq
          rcases hi.queued q hq with h | ⟨i, k1, k2, k3⟩
          · exact .inl h
          · exact .inr ⟨i, k1, good k2, k3.mono l⟩
        · intro c' p hp q hq hpq
          rcases mem c' p hp with hp | ⟨rfl, rfl⟩ <;> rcases mem c' q hq with hq | ⟨h', rfl⟩
          · exact hi.unique c' p hp q hq hpq
          · have := old c' p hp
            simp only at hpq
            omega
          · have := old _ q hq
            simp only at hpq
            omega
          · rfl
        · intro c' hc' s' hs' i hi'
          show i ≤ st'.lastId ∧ _
          rcases loggedIn_snoc hs' with hold | ⟨n2, sid2, r2, hh2, h2', hl2, he2⟩
          · obtain ⟨k1, k2⟩ := hi.kept c' hc' s' hold i hi'
            refine ⟨by omega, fun hn => ?_⟩
            have hm := k2 fun ho => hn (ho.mono l)
            by_cases hc2 : c' = c
            · subst hc2
              show (i, s') ∈ setAt _ _ _ _
              rw [setAt_self]
              refine List.mem_cons_of_mem _ (List.mem_filter.mpr ⟨hm, ?_⟩)
              simp only [ne_eq, decide_eq_true_eq]
              omega
            · show (i, s') ∈ setAt _ _ _ _
              rw [setAt_ne _ _ hc2]; exact hm
          · rw [← hlab] at hl2
            cases hl2
            rw [hs] at he2
            cases he2
            rw [hid] at hi'
            cases hi'
            refine ⟨by omega, fun _ => ?_⟩
            show (σ.st.lastId + 1, s) ∈ setAt _ _ _ _
            rw [setAt_self]
            exact .head _
        · refine ⟨hi.conns.1, hi.conns.2.1, ?_⟩
          intro c' s' hs'
          rcases loggedIn_snoc hs' with hold | ⟨n2, sid2, r2, hh2, h2', hl2, he2⟩
          · exact hi.conns.2.2 c' s' hold
          · rw [← hlab] at hl2
            cases hl2
            exact hc

theorem Inv.filter {tr : List Label} {σ : Srv} (hi : Inv tr σ) (n : Nat) :
    Inv tr { σ with waiting := σ.waiting.filter fun w => w.number ≠ n } := by
  have sub : ∀ q, q ∈ (σ.waiting.filter fun w => decide (w.number ≠ n)) → q ∈ σ.waiting :=
    fun q hq => (List.mem_filter.mp hq).1
  exact ⟨hi.known, hi.held, fun q hq => hi.queued q (sub q hq), hi.unique, hi.kept,
    ⟨hi.conns.1, fun q hq => hi.conns.2.1 q (sub q hq), hi.conns.2.2⟩,
    fun q hq => hi.numbers q (sub q hq), fun q hq q' hq' => hi.distinct q (sub q hq) q' (sub q' hq')⟩

theorem Inv.step {H : Hashes} {tr : List Label} {σ σ' : Srv} {l : Label} (hi : Inv tr σ)
    (h : Step H σ l σ') : Inv (tr ++ [l]) σ' := by
  cases h with
  | connect =>
    have h0 := hi.quiet (.connect σ.connections) (by intros; simp)
    refine ⟨h0.known, h0.held, h0.queued, h0.unique, ?_, ?_, h0.numbers, h0.distinct⟩
    · intro c hc s hs i hid
      rcases List.mem_cons.mp hc with rfl | hc
      · exact absurd (h0.conns.2.2 _ s hs) (Nat.lt_irrefl _)
      · exact h0.kept c hc s hs i hid
    · refine ⟨?_, fun q hq => Nat.lt_succ_of_lt (h0.conns.2.1 q hq),
        fun c s hs => Nat.lt_succ_of_lt (h0.conns.2.2 c s hs)⟩
      intro c hc
      rcases List.mem_cons.mp hc with rfl | hc
      · exact Nat.lt_succ_self _
      · exact Nat.lt_succ_of_lt (h0.conns.1 c hc)
  | disconnect c =>
    have h0 := hi.quiet (.disconnect c) (by intros; simp)
    have sub : ∀ x, x ∈ (σ.connected.filter fun x => decide (x ≠ c)) → x ∈ σ.connected :=
      fun x hx => (List.mem_filter.mp hx).1
    exact ⟨h0.known, h0.held, h0.queued, h0.unique, fun x hx => h0.kept x (sub x hx),
      ⟨fun x hx => h0.conns.1 x (sub x hx), h0.conns.2⟩, h0.numbers, h0.distinct⟩
  | receive c sid r hc =>
    have h0 := hi.quiet (.receive σ.received c sid r) (by intros; simp)
    refine ⟨h0.known, h0.held, ?_, h0.unique, h0.kept, ⟨h0.conns.1, ?_, h0.conns.2.2⟩, ?_, ?_⟩
    · intro q hq
      rcases List.mem_append.mp hq with hq | hq
      · exact h0.queued q hq
      · rw [List.mem_singleton] at hq
        subst hq
        rcases lookup_cases h0 c sid with hd | ⟨i, he, hm⟩
        · exact .inl hd
        · obtain ⟨g, hl⟩ := h0.held c _ hm
          exact .inr ⟨i, he, g, hl⟩
    · intro q hq
      rcases List.mem_append.mp hq with hq | hq
      · exact h0.conns.2.1 q hq
      · rw [List.mem_singleton] at hq
        subst hq
        exact h0.conns.1 c hc
    · intro q hq
      show q.number < σ.received + 1
      rcases List.mem_append.mp hq with hq | hq
      · exact Nat.lt_succ_of_lt (h0.numbers q hq)
      · rw [List.mem_singleton] at hq
        subst hq
        exact Nat.lt_succ_self _
    · intro q hq q' hq' he
      rcases List.mem_append.mp hq with hq | hq <;> rcases List.mem_append.mp hq' with hq' | hq'
      · exact h0.distinct q hq q' hq' he
      · rw [List.mem_singleton] at hq'
        subst hq'
        have := h0.numbers q hq
        simp only at he
        omega
      · rw [List.mem_singleton] at hq
        subst hq
        have := h0.numbers q' hq'
        simp only at he
        omega
      · rw [List.mem_singleton] at hq hq'
        rw [hq, hq']
  | run q hq h hs => exact (hi.filter q.number).handle _ _ _ _ _ (hi.conns.2.1 q hq)
  | refuse q hq e hs => exact (hi.filter q.number).quiet _ (by intros; simp)
  | restart =>
    have h0 := hi.quiet .restart (by intros; simp)
    exact ⟨fun q hq => (by cases hq), fun c p hp => (by cases hp), fun q hq => (by cases hq),
      fun c p hp => (by cases hp), fun c hc => (by cases hc),
      ⟨fun c hc => (by cases hc), fun q hq => (by cases hq), h0.conns.2.2⟩,
      fun q hq => (by cases hq), fun q hq => (by cases hq)⟩
  | records adm tokens =>
    have h0 := hi.quiet (.records adm tokens) (by intros; simp)
    exact ⟨h0.known, h0.held, h0.queued, h0.unique, h0.kept, h0.conns, h0.numbers, h0.distinct⟩

theorem Exec.inv {H : Hashes} {σ₀ σ : Srv} {tr : List Label} (h : Exec H σ₀ tr σ) (hf : σ₀.Fresh) :
    Inv tr σ := by
  induction h with
  | nil =>
    have none : ∀ c s, ¬ LoggedIn [] c s := by
      rintro c s ⟨n, sid, r, hh, h', hm, -⟩
      cases hm
    refine ⟨?_, ?_, ?_, ?_, ?_, ?_, ?_, ?_⟩
    · intro q hq; rw [hf.sessions] at hq; cases hq
    · intro c p hp; rw [hf.none] at hp; cases hp
    · intro q hq; rw [hf.waiting] at hq; cases hq
    · intro c p hp; rw [hf.none] at hp; cases hp
    · intro c hc; rw [hf.connected] at hc; cases hc
    · exact ⟨fun c hc => (by rw [hf.connected] at hc; cases hc),
        fun q hq => (by rw [hf.waiting] at hq; cases hq), fun c s hs => absurd hs (none c s)⟩
    · intro q hq; rw [hf.waiting] at hq; cases hq
    · intro q hq; rw [hf.waiting] at hq; cases hq
  | snoc h k ih => exact ih.step k

end Bonsai.Remote
