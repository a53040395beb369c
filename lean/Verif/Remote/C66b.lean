import Verif.Remote.C66

/-!
# C66: the statements
-/
set_option linter.unusedSimpArgs false
set_option linter.unusedVariables false

namespace Bonsai.Remote
open Bonsai Bonsai.Names Bonsai.Ident

/-- What running a request leaves alone, and the sessions it may enter. -/
theorem handle_frame (H : Hashes) (σ : Srv) (c : Nat) (h : Handle) (r : Request) :
    (σ.handle H c h r).2.defaults = σ.defaults ∧ (σ.handle H c h r).2.waiting = σ.waiting ∧
    (σ.handle H c h r).2.received = σ.received ∧ (σ.handle H c h r).2.connected = σ.connected ∧
    (σ.handle H c h r).2.connections = σ.connections ∧
    σ.st.lastId ≤ (σ.handle H c h r).2.st.lastId ∧
    ∀ c', ∀ p ∈ (σ.handle H c h r).2.sessions c', p ∈ σ.sessions c' ∨ p.1 = σ.st.lastId + 1 := by
  by_cases hlog : ∃ i, r = .logOut i
  · obtain ⟨i, rfl⟩ := hlog
    refine ⟨rfl, rfl, rfl, rfl, rfl, Nat.le_refl _, fun c' p hp => .inl ?_⟩
    simp only [Srv.handle, Srv.logOut] at hp
    by_cases he : c' = c
    · subst he
      rw [setAt_self] at hp
      exact (List.mem_filter.mp hp).1
    · rw [setAt_ne _ _ he] at hp; exact hp
  · have hnl : ∀ i, r = .logOut i → False := fun i e => hlog ⟨i, e⟩
    have hdef : σ.handle H c h r = (match r.event h with
        | none => (none, σ)
        | some e =>
          match (σ.st.next H e).1 with
          | .ok h' => (some h', Srv.loggedInAs { σ with st := (σ.st.next H e).2 } c h')
          | .error _ => (none, { σ with st := (σ.st.next H e).2 })) := by
      cases r <;> first | rfl | exact absurd rfl (hnl _)
    rw [hdef]
    cases he : r.event h with
    | none => exact ⟨rfl, rfl, rfl, rfl, rfl, Nat.le_refl _, fun c' p hp => .inl hp⟩
    | some e =>
      obtain ⟨h1, h2⟩ := login_effect H σ.st h r e he
      dsimp only
      cases hres : (σ.st.next H e).1 with
      | error x =>
        obtain ⟨hl, hs⟩ := h2 x hres
        exact ⟨rfl, rfl, rfl, rfl, rfl, Nat.le_of_eq hl.symm, fun c' p hp => .inl hp⟩
      | ok h' =>
        obtain ⟨s, hs, hid, hl, hss⟩ := h1 h' hres
        generalize (σ.st.next H e).2 = st' at hl hss
        dsimp only
        simp only [Srv.loggedInAs, hs, hid]
        refine ⟨trivial, trivial, trivial, trivial, trivial, by omega, fun c' p hp => ?_⟩
        by_cases hc' : c' = c
        · subst hc'
          rw [setAt_self, List.mem_cons] at hp
          rcases hp with hp | hp
          · right; rw [hp]
          · exact .inl (List.mem_filter.mp hp).1
        · rw [setAt_ne _ _ hc'] at hp; exact .inl hp

theorem Step.defaults {H : Hashes} {σ σ' : Srv} {l : Label} (h : Step H σ l σ') :
    σ'.defaults = σ.defaults := by
  cases h with
  | run q hq h hs => exact (handle_frame H _ _ h q.request).1
  | _ => rfl

theorem Exec.defaults {H : Hashes} {σ₀ σ : Srv} {tr : List Label} (h : Exec H σ₀ tr σ) :
    σ.defaults = σ₀.defaults := by
  induction h with
  | nil => rfl
  | snoc h k ih => rw [k.defaults, ih]

theorem exec_split {H : Hashes} {σ₀ σ : Srv} {tr₁ tr₂ : List Label} {l : Label}
    (h : Exec H σ₀ (tr₁ ++ l :: tr₂) σ) :
    ∃ σ₁ σ₂, Exec H σ₀ tr₁ σ₁ ∧ Step H σ₁ l σ₂ ∧ Exec H σ₂ tr₂ σ := by
  generalize htr : tr₁ ++ l :: tr₂ = tr at h
  induction h generalizing tr₂ with
  | nil => simp at htr
  | @snoc tr σ' l' σ'' h k ih =>
    rcases List.eq_nil_or_concat tr₂ with rfl | ⟨xs, x, rfl⟩
    · rw [show tr₁ ++ [l] = tr₁.concat l by simp, show tr ++ [l'] = tr.concat l' by simp] at htr
      obtain ⟨rfl, rfl⟩ := List.of_concat_eq_concat htr
      exact ⟨_, _, h, k, .nil _⟩
    · rw [show tr₁ ++ l :: (xs.concat x) = (tr₁ ++ l :: xs).concat x by simp,
        show tr ++ [l'] = tr.concat l' by simp] at htr
      obtain ⟨h1, rfl⟩ := List.of_concat_eq_concat htr
      obtain ⟨σ₁, σ₂, a, b, c⟩ := ih h1
      refine ⟨σ₁, σ₂, a, b, ?_⟩
      rw [List.concat_eq_append]
      exact .snoc c k

theorem exec_join {H : Hashes} {σ₀ σ₁ σ₂ σ : Srv} {tr₁ tr₂ : List Label} {l : Label}
    (h₁ : Exec H σ₀ tr₁ σ₁) (k : Step H σ₁ l σ₂) (h₂ : Exec H σ₂ tr₂ σ) :
    Exec H σ₀ (tr₁ ++ l :: tr₂) σ := by
  induction h₂ with
  | nil => exact .snoc h₁ k
  | @snoc tr σ' l' σ'' h k' ih =>
    rw [show tr₁ ++ l :: (tr ++ [l']) = (tr₁ ++ l :: tr) ++ [l'] by simp]
    exact .snoc ih k'

/-- A waiting request with a session the storage knows as it is runs as that session. -/
theorem runs_good {st : St} {i : Nat} {s : Session} {h : Handle} (g : Good st i s)
    (hs : st.assumeSession .local s = .ok h) : RunsAs h s.auth s.permissions := by
  unfold St.assumeSession at hs
  simp only [Handle.local] at hs
  rw [g.1] at hs
  simp only at hs
  cases ha : st.session i with
  | none => rw [ha] at hs; cases hs
  | some a =>
    rw [ha] at hs
    cases hs
    have : a = s := by
      unfold St.session at ha
      rw [Option.map_eq_some_iff] at ha
      obtain ⟨p, hp, rfl⟩ := ha
      have hm := List.mem_of_find?_eq_some hp
      have he := List.find?_some hp
      simp only [beq_iff_eq] at he
      exact g.2.2 p.2 (by rw [← he]; exact hm)
    subst this
    refine ⟨⟨_, rfl, rfl⟩, fun r b => ?_⟩
    simp [Handle.allowed, Permissions.merged, Permissions.allows, List.any_append]

theorem runs_default {st : St} {p : Permissions} {h : Handle}
    (hs : st.assumeSession .local ⟨none, .none, p⟩ = .ok h) : RunsAs h .none p := by
  simp only [St.assumeSession, Handle.local] at hs
  cases hs
  exact ⟨⟨_, rfl, rfl⟩, fun r b => rfl⟩

/-- **C66**: whatever clients send, in every interleaving, with workers running requests late and in any
order, and with restarts: a request runs either with the default permissions and no identity, or as a
session that a request of *the same connection* obtained by logging in and whose id the request names,
with exactly that session's identity and permissions. -/
theorem C66_runs_as_own_session (H : Hashes) (σ₀ σ : Srv) (tr : List Label) (hf : σ₀.Fresh)
    (he : Exec H σ₀ tr σ) (n c : Nat) (sid : Option Nat) (r : Request) (h : Handle) (got : Option Handle)
    (hm : Label.ran n c sid r h got ∈ tr) :
    RunsAs h .none σ₀.defaults ∨
      ∃ s, LoggedIn tr c s ∧ s.id ≠ none ∧ sid = s.id ∧ RunsAs h s.auth s.permissions := by
  induction he with
  | nil => cases hm
  | @snoc tr σ' l σ'' ex k ih =>
    rcases List.mem_append.mp hm with hm | hm
    · rcases ih hm with h1 | ⟨s, h1, h2⟩
      · exact .inl h1
      · exact .inr ⟨s, h1.mono l, h2⟩
    · rw [List.mem_singleton] at hm
      have hi := ex.inv hf
      have hd := ex.defaults
      cases k with
      | run q hq h' hs =>
        cases hm
        rcases hi.queued q hq with hq' | ⟨i, h1, g, hl⟩
        · rw [hq', Srv.defaultSession, hd] at hs
          exact .inl (runs_default hs)
        · exact .inr ⟨q.session, hl.mono _, (by rw [g.1]; simp), (by rw [h1, g.1]), runs_good g hs⟩
      | _ => cases hm

/-- What is waiting under a number that was given out stays the same request until it is run. -/
theorem waiting_stays {H : Hashes} {σ σ' : Srv} {tr : List Label} (he : Exec H σ tr σ') {n : Nat}
    {w : Waiting} (hn : n < σ.received) (hw : ∀ q ∈ σ.waiting, q.number = n → q = w) :
    n < σ'.received ∧ ∀ q ∈ σ'.waiting, q.number = n → q = w := by
  induction he with
  | nil => exact ⟨hn, hw⟩
  | snoc ex k ih =>
    obtain ⟨i1, i2⟩ := ih
    cases k with
    | run q hq h hs =>
      obtain ⟨-, f2, f3, -⟩ := handle_frame H
        { ‹Srv› with waiting := (‹Srv›).waiting.filter fun w => w.number ≠ q.number }
        q.connection h q.request
      rw [f2, f3]
      exact ⟨i1, fun q' hq' => i2 q' (List.mem_filter.mp hq').1⟩
    | refuse q hq e hs => exact ⟨i1, fun q' hq' => i2 q' (List.mem_filter.mp hq').1⟩
    | restart => exact ⟨i1, fun q' hq' => (by cases hq')⟩
    | receive c sid r hc =>
      refine ⟨Nat.lt_succ_of_lt i1, fun q hq hqn => ?_⟩
      rcases List.mem_append.mp hq with hq | hq
      · exact i2 q hq hqn
      · rw [List.mem_singleton] at hq
        subst hq
        simp only at hqn
        omega
    | _ => exact ⟨i1, i2⟩

/-- The request that a `receive` puts in the queue runs under its number, as the session that was found
when it was received. -/
theorem received_runs {H : Hashes} {σ₀ σ₁ σ₂ σ : Srv} {tr₁ tr₂ : List Label} {n c : Nat} {sid : Option Nat}
    {req : Request} (hf : σ₀.Fresh) (e₁ : Exec H σ₀ tr₁ σ₁) (k : Step H σ₁ (.receive n c sid req) σ₂)
    (e₂ : Exec H σ₂ tr₂ σ) {c' : Nat} {sid' : Option Nat} {r : Request} {h : Handle} {got : Option Handle}
    (hm : Label.ran n c' sid' r h got ∈ tr₂) :
    c' = c ∧ sid' = sid ∧ r = req ∧
      RunsAs h (σ₁.lookup c sid).auth (σ₁.lookup c sid).permissions := by
  obtain ⟨a, b, rfl⟩ := List.append_of_mem hm
  obtain ⟨σa, σb, ea, ka, eb⟩ := exec_split e₂
  have hi := (exec_join e₁ k ea).inv hf
  have h1 := e₁.inv hf
  cases k with
  | receive _ _ _ hc =>
    obtain ⟨-, hw⟩ := waiting_stays ea (n := σ₁.received)
      (w := ⟨σ₁.received, c, sid, σ₁.lookup c sid, req⟩) (Nat.lt_succ_self _) (by
        intro q hq hqn
        rcases List.mem_append.mp hq with hq | hq
        · have := h1.numbers q hq
          omega
        · exact List.mem_singleton.mp hq)
    generalize hlab : Label.ran σ₁.received c' sid' r h got = l at ka
    cases ka with
    | run q hq h' hs =>
      simp only [Label.ran.injEq] at hlab
      obtain ⟨hn, rfl, rfl, rfl, rfl, -⟩ := hlab
      have hq2 := hw q hq hn.symm
      subst hq2
      refine ⟨rfl, rfl, rfl, ?_⟩
      rcases hi.queued _ hq with hd | ⟨i, -, g, -⟩
      · simp only at hd hs ⊢
        rw [hd] at hs ⊢
        exact runs_default hs
      · exact runs_good g hs
    | _ => cases hlab

/-- **C66**: after a connection logged in, and as long as it did not log out of that session, every
request it sends with the session's id runs with the identity and the permissions of the session, if it
runs at all, whatever other clients do. Missing, and false: requests of the same client handle after its
connection was replaced by a new one. -/
theorem C66_session_kept_partial (H : Hashes) (σ₀ σ : Srv) (tr₁ tr₂ : List Label) (hf : σ₀.Fresh)
    (n c i : Nat) (req : Request) (s : Session)
    (he : Exec H σ₀ (tr₁ ++ .receive n c (some i) req :: tr₂) σ)
    (hin : LoggedIn tr₁ c s) (hid : s.id = some i) (hout : ¬ LoggedOut tr₁ c i)
    (c' : Nat) (sid : Option Nat) (r : Request) (h : Handle) (got : Option Handle)
    (hm : Label.ran n c' sid r h got ∈ tr₂) :
    c' = c ∧ sid = some i ∧ r = req ∧ RunsAs h s.auth s.permissions := by
  obtain ⟨σ₁, σ₂, e₁, k, e₂⟩ := exec_split he
  obtain ⟨a1, a2, a3, a4⟩ := received_runs hf e₁ k e₂ hm
  have hi := e₁.inv hf
  have hl : σ₁.lookup c (some i) = s := by
    have hc : c ∈ σ₁.connected := by cases k with | receive _ _ _ hc => exact hc
    have hmem := (hi.kept c hc s hin i hid).2 hout
    unfold Srv.lookup
    simp only
    cases hfd : (σ₁.sessions c).find? fun p => decide (p.1 = i) with
    | none => exact absurd (List.find?_eq_none.mp hfd _ hmem) (by simp)
    | some p =>
      have hm := List.mem_of_find?_eq_some hfd
      have hp := List.find?_some hfd
      simp only [decide_eq_true_eq] at hp
      have := hi.unique c p hm _ hmem hp
      simp only [this]
  rw [hl] at a4
  exact ⟨a1, a2, a3, a4⟩

/-- A connection no longer has session `i`. -/
def Gone (c i : Nat) (σ : Srv) : Prop :=
  c < σ.connections ∧ (c ∈ σ.connected → i ≤ σ.st.lastId ∧ ∀ p ∈ σ.sessions c, p.1 ≠ i)

theorem Gone.exec {H : Hashes} {σ σ' : Srv} {tr : List Label} {c i : Nat} (he : Exec H σ tr σ')
    (h : Gone c i σ) : Gone c i σ' := by
  induction he with
  | nil => exact h
  | @snoc tr σ' l σ'' ex k ih =>
    obtain ⟨i1, i2⟩ := ih
    cases k with
    | run q hq h hs =>
      obtain ⟨-, -, -, f4, f5, f6, f7⟩ := handle_frame H
        { σ' with waiting := σ'.waiting.filter fun w => w.number ≠ q.number } q.connection h q.request
      refine ⟨by rw [f5]; exact i1, fun hc => ?_⟩
      rw [f4] at hc
      obtain ⟨j1, j2⟩ := i2 hc
      refine ⟨Nat.le_trans j1 f6, fun p hp => ?_⟩
      rcases f7 c p hp with hp | hp
      · exact j2 p hp
      · simp only at hp
        omega
    | refuse q hq e hs => exact ⟨i1, i2⟩
    | restart => exact ⟨i1, fun hc => (by cases hc)⟩
    | receive c sid r hc => exact ⟨i1, i2⟩
    | connect =>
      refine ⟨Nat.lt_succ_of_lt i1, fun hc => ?_⟩
      rcases List.mem_cons.mp hc with rfl | hc
      · exact absurd i1 (Nat.lt_irrefl _)
      · exact i2 hc
    | disconnect d => exact ⟨i1, fun hc => i2 (List.mem_filter.mp hc).1⟩
    | records adm tokens => exact ⟨i1, i2⟩

/-- **C66**: once a connection has logged out of a session, whatever it sends with the session's id
afterwards runs with the default permissions and no identity. (Requests it sent before, and that wait
for a worker, still run as the session.) -/
theorem C66_logged_out (H : Hashes) (σ₀ σ : Srv) (tr₁ tr₂ tr₃ : List Label) (hf : σ₀.Fresh)
    (n m c i : Nat) (sid : Option Nat) (h₀ : Handle) (got₀ : Option Handle) (req : Request) (s : Session)
    (he : Exec H σ₀ (tr₁ ++ .ran m c sid (.logOut i) h₀ got₀ ::
      (tr₂ ++ .receive n c (some i) req :: tr₃)) σ)
    (hin : LoggedIn tr₁ c s) (hid : s.id = some i)
    (c' : Nat) (sid' : Option Nat) (r : Request) (h : Handle) (got : Option Handle)
    (hm : Label.ran n c' sid' r h got ∈ tr₃) : RunsAs h .none σ₀.defaults := by
  obtain ⟨σ₁, σ₂, e₁, k, e₂⟩ := exec_split he
  obtain ⟨σ₃, σ₄, e₃, k₃, e₄⟩ := exec_split e₂
  have e₅ := exec_join e₁ k e₃
  have hi := e₁.inv hf
  have hg : Gone c i σ₂ := by
    generalize hlab : Label.ran m c sid (.logOut i) h₀ got₀ = l at k
    cases k with
    | run q hq h' hs =>
      simp only [Label.ran.injEq] at hlab
      obtain ⟨-, rfl, -, hr, -, -⟩ := hlab
      rw [← hr]
      refine ⟨hi.conns.2.1 q hq, fun hc => ⟨(hi.kept _ hc s hin i hid).1, fun p hp => ?_⟩⟩
      simp only [Srv.handle, Srv.logOut] at hp
      rw [setAt_self] at hp
      simpa using (List.mem_filter.mp hp).2
    | _ => cases hlab
  obtain ⟨-, -, -, a4⟩ := received_runs hf e₅ k₃ e₄ hm
  have hc : c ∈ σ₃.connected := by cases k₃ with | receive _ _ _ hc => exact hc
  have hgone := (hg.exec e₃).2 hc
  have hl : σ₃.lookup c (some i) = σ₃.defaultSession := by
    unfold Srv.lookup
    simp only
    cases hfd : (σ₃.sessions c).find? fun p => decide (p.1 = i) with
    | none => rfl
    | some p =>
      have hm := List.mem_of_find?_eq_some hfd
      have hp := List.find?_some hfd
      simp only [decide_eq_true_eq] at hp
      exact absurd hp (hgone.2 p hm)
  rw [hl] at a4
  rw [← e₅.defaults]
  exact a4

/-! ## Client handles after a new connection -/

section Example

/-- "ann" (1) is in a group that allows everything, "bob" (2) in none; their passwords are `[1]`, `[2]`. -/
def exUsers : Adm where
  users := [(1#64, ⟨0, ⟨"ann", [8#64], [], some [1]⟩⟩), (2#64, ⟨0, ⟨"bob", [], [], some [2]⟩⟩)]
  roles := []
  groups := [(8#64, ⟨0, ⟨"administrators", [fun _ _ => true]⟩⟩)]

/-- A server that was just started; everyone may log in with a password, users may also do `other 1`. -/
def exSrv : Srv where
  st := ⟨exUsers, fun _ => none, [fun _ a => a == .other 1], [], 0⟩
  defaults := [fun _ a => a == .authenticatePassword]
  connected := []
  sessions := fun _ => []
  waiting := []
  received := 0
  connections := 0

theorem exSrv_fresh : exSrv.Fresh := ⟨rfl, rfl, rfl, fun _ => rfl, rfl⟩

/-- The session a user gets with the id `i`. -/
def annSession (i : Nat) : Session :=
  ⟨some i, .identity (.user 1#64 "ann"), [fun _ _ => true, fun _ a => a == .other 1]⟩
def bobSession (i : Nat) : Session := ⟨some i, .identity (.user 2#64 "bob"), [fun _ a => a == .other 1]⟩

/-- The handle that a request without a session runs with. -/
def plainHandle : Handle := ⟨none, some ⟨none, .none, [fun _ a => a == .authenticatePassword]⟩⟩

/-- Connection 0 is opened and logs in as bob. -/
def exBobIn : Srv := { exSrv with
  st := { exSrv.st with sessions := [(1, bobSession 1)], lastId := 1 }
  connected := [0], connections := 1, received := 1
  sessions := setAt (fun _ => []) 0 [(1, bobSession 1)] }

def exBobTrace : List Label :=
  [.connect 0, .receive 0 0 none (.password (.name "bob") [2]),
    .ran 0 0 none (.password (.name "bob") [2]) plainHandle (some ⟨some (bobSession 1), some (bobSession 1)⟩)]

theorem exBob : Exec exHashes exSrv exBobTrace exBobIn := by
  have s1 : Step exHashes exSrv (.connect 0) _ := .connect exSrv
  have s2 := Step.receive (H := exHashes) _ 0 none (.password (.name "bob") [2])
    (show 0 ∈ ({ exSrv with connected := 0 :: exSrv.connected, connections := 0 + 1 } : Srv).connected
      from .head _)
  have s3 := Step.run (H := exHashes) _ ⟨0, 0, none, ⟨none, .none, [fun _ a => a == .authenticatePassword]⟩,
    .password (.name "bob") [2]⟩ (show _ ∈ ({ exSrv with
      connected := 0 :: exSrv.connected, connections := 0 + 1,
      waiting := [⟨0, 0, none, ⟨none, .none, [fun _ a => a == .authenticatePassword]⟩,
        .password (.name "bob") [2]⟩], received := 0 + 1 } : Srv).waiting from .head _) plainHandle rfl
  exact ((Exec.nil _).snoc s1 |>.snoc s2 |>.snoc s3)

theorem exBob_loggedIn : LoggedIn exBobTrace 0 (bobSession 1) :=
  ⟨0, none, _, _, _, .tail _ (.tail _ (.head _)), rfl⟩

/-- The handle bob's login gave the client. -/
def bobsHandle : ClientHandle := ⟨bobSession 1, 0⟩

/-- The hypotheses of `C66_session_kept_partial` are met: a request with bob's session on connection 0. -/
example : ∃ σ h got, Exec exHashes exSrv (exBobTrace ++ .receive 1 0 (bobsHandle.payloadSession 0) (.other []) ::
      [.ran 1 0 (some 1) (.other []) h got]) σ ∧
    LoggedIn exBobTrace 0 (bobSession 1) ∧ ¬ LoggedOut exBobTrace 0 1 ∧
    h.allowed .server (.other 1) = true ∧ h.allowed .server .createUser = false := by
  have s2 := Step.receive (H := exHashes) exBobIn 0 (some 1) (.other []) (.head _)
  have s3 := Step.run (H := exHashes) { exBobIn with
      waiting := [⟨1, 0, some 1, bobSession 1, .other []⟩], received := 1 + 1 }
    ⟨1, 0, some 1, bobSession 1, .other []⟩ (.head _) _ rfl
  refine ⟨_, _, _, exec_join exBob s2 ((Exec.nil _).snoc s3), exBob_loggedIn, ?_, rfl, rfl⟩
  rintro ⟨n, sid, h, got, hm⟩
  simp [exBobTrace] at hm

/-- Bob logs out, and the hypotheses of `C66_logged_out` are met. -/
example : ∃ σ h, Exec exHashes exSrv ((exBobTrace ++ [.receive 1 0 (some 1) (.logOut 1)]) ++
      .ran 1 0 (some 1) (.logOut 1) ⟨some (bobSession 1), some ⟨some 1, (bobSession 1).auth,
        Permissions.merged [(bobSession 1).permissions, (bobSession 1).permissions]⟩⟩ none ::
      ([] ++ .receive 2 0 (some 1) (.other []) :: [.ran 2 0 (some 1) (.other []) h none])) σ ∧
    h.allowed .server (.other 1) = false := by
  have s2 := Step.receive (H := exHashes) exBobIn 0 (some 1) (.logOut 1) (.head _)
  have s3 := Step.run (H := exHashes) { exBobIn with
      waiting := [⟨1, 0, some 1, bobSession 1, .logOut 1⟩], received := 1 + 1 }
    ⟨1, 0, some 1, bobSession 1, .logOut 1⟩ (.head _) _ rfl
  have s4 := Step.receive (H := exHashes) { exBobIn with
      waiting := [], received := 1 + 1, sessions := setAt (setAt (fun _ => []) 0 [(1, bobSession 1)]) 0 [] }
    0 (some 1) (.other []) (.head _)
  have s5 := Step.run (H := exHashes) { exBobIn with
      waiting := [⟨2, 0, some 1, ⟨none, .none, [fun _ a => a == .authenticatePassword]⟩, .other []⟩]
      received := 1 + 1 + 1, sessions := setAt (setAt (fun _ => []) 0 [(1, bobSession 1)]) 0 [] }
    ⟨2, 0, some 1, ⟨none, .none, [fun _ a => a == .authenticatePassword]⟩, .other []⟩ (.head _) _ rfl
  exact ⟨_, _, exec_join (exBob.snoc s2) s3 (((Exec.nil _).snoc s4).snoc s5), rfl⟩

/-- **C66 is violated**: a client handle that logged in keeps sending its session's id after the client's
connection was lost and made anew; the server does not know that session on the new connection and,
instead of an error, runs the handle's requests with the default permissions and no identity. -/
theorem C66_violated_after_reconnect :
    ∃ (H : Hashes) (σ₀ σ : Srv) (tr : List Label) (ch : ClientHandle) (n : Nat) (req : Request) (h : Handle),
      σ₀.Fresh ∧ Exec H σ₀ tr σ ∧
      LoggedIn tr ch.connection ch.session ∧ (∀ c i, ¬ LoggedOut tr c i) ∧
      Label.ran n 1 (ch.payloadSession 1) req h none ∈ tr ∧ ch.sessionIsCurrent 1 = false ∧
      ch.session.permissions.allows .server (.other 1) = true ∧ h.allowed .server (.other 1) = false ∧
      RunsAs h .none σ₀.defaults := by
  have s1 := Step.disconnect (H := exHashes) exBobIn 0
  have s2 := Step.connect (H := exHashes) { exBobIn with connected := [] }
  have s3 := Step.receive (H := exHashes) { exBobIn with connected := [1], connections := 1 + 1 }
    1 (some 1) (.other []) (.head _)
  have s4 := Step.run (H := exHashes) { exBobIn with
      connected := [1], connections := 1 + 1, received := 1 + 1
      waiting := [⟨1, 1, some 1, ⟨none, .none, [fun _ a => a == .authenticatePassword]⟩, .other []⟩] }
    ⟨1, 1, some 1, ⟨none, .none, [fun _ a => a == .authenticatePassword]⟩, .other []⟩ (.head _) plainHandle rfl
  have ex := (((exBob.snoc s1).snoc s2).snoc s3).snoc s4
  refine ⟨exHashes, exSrv, _, _, bobsHandle, 1, .other [], plainHandle, exSrv_fresh, ex, ?_, ?_, ?_, rfl, rfl, rfl,
    ⟨_, rfl, rfl⟩, fun r a => rfl⟩
  · exact (((exBob_loggedIn.mono _).mono _).mono _).mono _
  · rintro c i ⟨n, sid, h, got, hm⟩
    simp [exBobTrace] at hm
  · exact List.mem_append_right _ (.head _)

/-- **C66 is violated**: a server that is started again gives out session ids from 1 again. A client
handle that logged in as bob before the restart sends id 1; when another handle of the same client has
logged in as ann since, bob's handle acts as ann. -/
theorem C66_violated_after_restart :
    ∃ (H : Hashes) (σ₀ σ : Srv) (tr : List Label) (ch : ClientHandle) (n : Nat) (req : Request) (h : Handle),
      σ₀.Fresh ∧ Exec H σ₀ tr σ ∧
      LoggedIn tr ch.connection ch.session ∧ (∀ c i, ¬ LoggedOut tr c i) ∧
      Label.ran n 1 (ch.payloadSession 1) req h none ∈ tr ∧
      ch.session.auth = .identity (.user 2#64 "bob") ∧
      ch.session.permissions.allows .server .createUser = false ∧
      (∃ e, h.effective = some e ∧ e.auth = .identity (.user 1#64 "ann")) ∧
      h.allowed .server .createUser = true := by
  have s1 := Step.restart (H := exHashes) exBobIn
  have s2 := Step.connect (H := exHashes) { exSrv with received := 1, connections := 1 }
  have s3 := Step.receive (H := exHashes) { exSrv with
      received := 1, connections := 1 + 1, connected := [1] } 1 none (.password (.name "ann") [1]) (.head _)
  have s4 := Step.run (H := exHashes) { exSrv with
      received := 1 + 1, connections := 1 + 1, connected := [1]
      waiting := [⟨1, 1, none, ⟨none, .none, [fun _ a => a == .authenticatePassword]⟩,
        .password (.name "ann") [1]⟩] }
    ⟨1, 1, none, ⟨none, .none, [fun _ a => a == .authenticatePassword]⟩, .password (.name "ann") [1]⟩ (.head _)
    plainHandle rfl
  have s5 := Step.receive (H := exHashes) { exSrv with
      st := { exSrv.st with sessions := [(1, annSession 1)], lastId := 1 }
      sessions := setAt (fun _ => []) 1 [(1, annSession 1)]
      received := 1 + 1, connections := 1 + 1, connected := [1], waiting := [] } 1 (some 1) (.other []) (.head _)
  have s6 := Step.run (H := exHashes) { exSrv with
      st := { exSrv.st with sessions := [(1, annSession 1)], lastId := 1 }
      sessions := setAt (fun _ => []) 1 [(1, annSession 1)]
      received := 1 + 1 + 1, connections := 1 + 1, connected := [1]
      waiting := [⟨2, 1, some 1, annSession 1, .other []⟩] }
    ⟨2, 1, some 1, annSession 1, .other []⟩ (.head _) _ rfl
  have ex := (((((exBob.snoc s1).snoc s2).snoc s3).snoc s4).snoc s5).snoc s6
  refine ⟨exHashes, exSrv, _, _, bobsHandle, 2, .other [], _, exSrv_fresh, ex, ?_, ?_,
    List.mem_append_right _ (.head _), rfl, rfl, ⟨_, rfl, rfl⟩, rfl⟩
  · exact (((((exBob_loggedIn.mono _).mono _).mono _).mono _).mono _).mono _
  · rintro c i ⟨n, sid, h, got, hm⟩
    simp [exBobTrace] at hm

end Example

end Bonsai.Remote
