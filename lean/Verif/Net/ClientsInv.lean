import Verif.Net.Clients

/-!
# Invariants of the clients of a server (for C82)
-/
set_option linter.unusedVariables false
set_option linter.unusedSimpArgs false

namespace Bonsai.Net

/-- The connection is in the map of clients. -/
def CStage.listed : CStage → Bool
  | .inserted | .greeting | .serving | .leaving => true
  | _ => false

/-- The sessions were not yet collected by `disconnect_client`. -/
def CStage.early : CStage → Bool
  | .inserted | .greeting | .serving | .leaving | .removed | .marked => true
  | _ => false

/-- The map is right. -/
structure CInvMap (w : CWorld) : Prop where
  iff : ∀ i c, w.map i = some c ↔ ∃ k, w.conns c = some k ∧ k.id = i ∧ k.stage.listed = true

theorem cinvMap_step {a : Bool} {w w' : CWorld} (h : CInvMap w) (st : CStep a w w') : CInvMap w' := by
  obtain ⟨h⟩ := h
  cases st
  case skip h1 h2 => exact ⟨h⟩
  case insert c ha h1 h2 =>
    refine ⟨fun i c' => ?_⟩
    have := h i c'
    have := h w.counter c'
    simp only [CWorld.insert, CWorld.setC, CWorld.at, CConn.new]
    by_cases e : c' = c
    · subst e
      by_cases e2 : i = w.counter
      · subst e2; simp [CStage.listed]
      · simp only [if_true, if_neg e2]
        constructor
        · intro hm; obtain ⟨k, hk, _⟩ := (h i c').mp hm; rw [h1] at hk; cases hk
        · rintro ⟨k, hk, hi, _⟩; cases hk; exact absurd hi.symm e2
    · by_cases e2 : i = w.counter
      · subst e2
        simp only [if_true, if_neg e]
        constructor
        · intro hm; cases hm; exact absurd rfl e
        · intro hk; rw [(h w.counter c').mpr hk] at h2; cases h2
      · simp only [if_neg e, if_neg e2]; exact h i c'
  case broadcast m =>
    refine ⟨fun i c' => ?_⟩
    have := h i c'
    simp only [CWorld.broadcast]
    cases hc : w.conns c' with
    | none => grind
    | some k => simp [hc] at this ⊢; rw [this]; split <;> simp [CConn.send] <;> split <;> simp
  case remove c k h1 h2 =>
    have hm : w.map k.id = some c := (h k.id c).mpr ⟨k, h1, rfl, by rw [h2]; rfl⟩
    refine ⟨fun i c' => ?_⟩
    simp only [CWorld.setC, CWorld.at]
    by_cases e : c' = c
    · subst e
      by_cases e2 : i = k.id
      · subst e2; simp [CStage.listed]
      · simp only [if_true, if_neg e2]
        constructor
        · intro hm'; obtain ⟨k', hk', hi, _⟩ := (h i c').mp hm'; rw [h1] at hk'; cases hk'; exact absurd hi.symm e2
        · rintro ⟨k', hk', hi, _⟩; cases hk'; exact absurd hi.symm e2
    · by_cases e2 : i = k.id
      · subst e2
        simp only [if_true, if_neg e]
        constructor
        · intro hm'; cases hm'
        · intro hk'; have := (h k.id c').mpr hk'; rw [hm] at this; cases this; exact absurd rfl e
      · simp only [if_neg e, if_neg e2]; exact h i c'
  case announce => exact ⟨h⟩
  case announceEnd => exact ⟨h⟩
  all_goals
    refine ⟨fun i c' => ?_⟩
    have h1 := h i c'
    simp only [CWorld.setC, CWorld.at, CWorld.call, CConn.loggedInAs, CConn.logOut, CConn.send] at *
    grind [CStage.listed]

theorem cinvMap {a : Bool} {w w' : CWorld} (h : CInvMap w) (st : CSteps a w w') : CInvMap w' := by
  induction st with
  | refl => exact h
  | step _ s ih => exact cinvMap_step ih s

/-- The rest of what holds between the steps. -/
structure CInv (w : CWorld) : Prop where
  noneLog : ∀ c, w.conns c = none → CEvent.connected c ∉ w.log ∧ CEvent.disconnected c ∉ w.log ∧
    (∀ s, CEvent.authenticated c s ∉ w.log) ∧ ∀ s d, CEvent.ended c s d ∉ w.log
  noneAuth : ∀ c s, w.conns c = none → (c, s) ∉ w.auths
  noneEnds : ∀ c s, w.conns c = none → (c, s) ∉ w.ends
  conn : ∀ c k, w.conns c = some k → (k.connected = true ↔ k.stage.listed = true ∨ k.stage = .removed)
  acc : ∀ c k, w.conns c = some k → k.accepted = true → k.stage ≠ .inserted ∧ k.stage ≠ .greeting
  cIff : ∀ c k, w.conns c = some k → (CEvent.connected c ∈ w.log ↔ k.stage ≠ .inserted)
  dIff : ∀ c k, w.conns c = some k → (CEvent.disconnected c ∈ w.log ↔ k.stage = .gone)
  nd : ∀ c k, w.conns c = some k → k.sessions.Nodup
  bound : ∀ c k s i, w.conns c = some k → s ∈ k.sessions → s.id = some i → i ≤ w.lastSession
  initial : ∀ c k, w.conns c = some k → CSession.initial ∈ k.sessions
  early : ∀ c k s, w.conns c = some k → k.stage.early = true → CEvent.ended c s true ∉ w.log
  ending : ∀ c k ss, w.conns c = some k → k.stage = .ending ss → ss.Nodup ∧ ∀ s ∈ ss, CEvent.ended c s true ∉ w.log
  live : ∀ c k s, w.conns c = some k → s ∈ k.sessions → (c, s) ∉ w.ends ∧ CEvent.ended c s false ∉ w.log
  unacc : ∀ c k, w.conns c = some k → k.accepted = false → k.sessions = [CSession.initial] ∧
    (∀ s, CEvent.authenticated c s ∉ w.log ∧ (c, s) ∉ w.auths ∧ (c, s) ∉ w.ends ∧ CEvent.ended c s false ∉ w.log)
  authsNd : (w.auths.map (fun p => p.2.id)).Nodup
  authsB : ∀ c s, (c, s) ∈ w.auths → ∃ i, s.id = some i ∧ i ≤ w.lastSession
  authsL : ∀ c s c' s', (c, s) ∈ w.auths → CEvent.authenticated c' s' ∈ w.log → s.id ≠ s'.id
  logB : ∀ c s, CEvent.authenticated c s ∈ w.log → ∃ i, s.id = some i ∧ i ≤ w.lastSession
  endsNd : w.ends.Nodup
  endsB : ∀ c s, (c, s) ∈ w.ends → ∃ i, s.id = some i ∧ i ≤ w.lastSession
  endsL : ∀ c s, (c, s) ∈ w.ends → CEvent.ended c s false ∉ w.log
  endedB : ∀ c s, CEvent.ended c s false ∈ w.log → ∃ i, s.id = some i ∧ i ≤ w.lastSession

set_option maxHeartbeats 4000000 in
theorem cinv_step {a : Bool} {w w' : CWorld} (h : CInv w) (st : CStep a w w') : CInv w' := by
  obtain ⟨noneLog, noneAuth, noneEnds, conn, acc, cIff, dIff, nd, bound, initial, early, ending, live, unacc, authsNd,
    authsB, authsL, logB, endsNd, endsB, endsL, endedB⟩ := h
  cases st
  case skip h1 h2 => constructor <;> assumption
  case insert c ha h1 h2 =>
    constructor <;> simp only [CWorld.insert, CWorld.setC, CWorld.at, CConn.new] <;> grind [CStage.listed, CStage.early, CSession.initial]
  case greet c k h1 h2 =>
    constructor <;> simp only [CWorld.call, CWorld.setC, CWorld.at] <;> grind [CStage.listed, CStage.early, CSession.initial]
  case accept c k h1 h2 =>
    constructor <;> simp only [CWorld.call, CWorld.setC, CWorld.at] <;> grind [CStage.listed, CStage.early, CSession.initial]
  case reject c k h1 h2 =>
    constructor <;> simp only [CWorld.call, CWorld.setC, CWorld.at] <;> grind [CStage.listed, CStage.early, CSession.initial]
  case leave c k h1 h2 =>
    constructor <;> simp only [CWorld.call, CWorld.setC, CWorld.at] <;> grind [CStage.listed, CStage.early, CSession.initial]
  case remove c k h1 h2 =>
    constructor <;> simp only [CWorld.call, CWorld.setC, CWorld.at] <;> grind [CStage.listed, CStage.early, CSession.initial]
  case mark c k h1 h2 =>
    constructor <;> simp only [CWorld.call, CWorld.setC, CWorld.at] <;> grind [CStage.listed, CStage.early, CSession.initial]
  case collect c k ss h1 h2 h3 =>
    have := h3.nodup_iff
    constructor <;> simp only [CWorld.call, CWorld.setC, CWorld.at] <;> grind [CStage.listed, CStage.early, CSession.initial]
  case endOne c k s ss h1 h2 =>
    constructor <;> simp only [CWorld.call, CWorld.setC, CWorld.at] <;> grind [CStage.listed, CStage.early, CSession.initial]
  case finish c k h1 h2 =>
    constructor <;> simp only [CWorld.call, CWorld.setC, CWorld.at] <;> grind [CStage.listed, CStage.early, CSession.initial]
  case login c k b h1 h2 =>
    constructor <;> simp only [CWorld.call, CWorld.setC, CWorld.at, CConn.loggedInAs] <;>
      grind [CStage.listed, CStage.early, CSession.initial]
  case announce c s l r h1 =>
    constructor <;> simp only [CWorld.call, CWorld.setC, CWorld.at] <;> grind [CStage.listed, CStage.early, CSession.initial]
  case logout c k s i h1 h2 h3 h4 =>
    constructor <;> simp only [CWorld.call, CWorld.setC, CWorld.at, CConn.logOut] <;>
      grind [CStage.listed, CStage.early, CSession.initial]
  case announceEnd c s l r h1 =>
    constructor <;> simp only [CWorld.call, CWorld.setC, CWorld.at] <;> grind [CStage.listed, CStage.early, CSession.initial]
  case broadcast m =>
    have key : ∀ c k', (w.broadcast m).conns c = some k' → ∃ k, w.conns c = some k ∧ k'.stage = k.stage ∧
        k'.sessions = k.sessions ∧ k'.connected = k.connected ∧ k'.accepted = k.accepted := by
      intro c k' e
      simp only [CWorld.broadcast, Option.map_eq_some_iff] at e
      obtain ⟨k, hk, rfl⟩ := e
      refine ⟨k, hk, ?_⟩
      split <;> simp [CConn.send] <;> split <;> simp
    have key2 : ∀ c, (w.broadcast m).conns c = none → w.conns c = none := by
      intro c e; simpa [CWorld.broadcast] using e
    have e1 : (w.broadcast m).log = w.log := rfl
    have e2 : (w.broadcast m).auths = w.auths := rfl
    have e3 : (w.broadcast m).ends = w.ends := rfl
    have e4 : (w.broadcast m).lastSession = w.lastSession := rfl
    constructor <;> grind
  case send c k s m h1 =>
    have e : ∃ o, k.send s m = { k with outbox := o } := by
      unfold CConn.send; split
      · exact ⟨_, rfl⟩
      · exact ⟨k.outbox, rfl⟩
    obtain ⟨o, e⟩ := e
    constructor <;> simp only [CWorld.call, CWorld.setC, CWorld.at, e] <;> grind [CStage.listed, CStage.early, CSession.initial]
  case close c k h1 =>
    constructor <;> simp only [CWorld.call, CWorld.setC, CWorld.at] <;> grind [CStage.listed, CStage.early, CSession.initial]

theorem cinvMap_reach {a : Bool} {w : CWorld} (r : CReach a w) : CInvMap w :=
  cinvMap ⟨fun i c => by simp [CWorld.empty]⟩ r

theorem cinv_empty : CInv CWorld.empty := by
  constructor <;> simp [CWorld.empty]

theorem cinv_reach {a : Bool} {w : CWorld} (r : CReach a w) : CInv w := by
  induction r with
  | refl => exact cinv_empty
  | step _ s ih => exact cinv_step ih s

/-- What is required of the calls before a call. -/
def CEvent.Pre : CEvent → List CEvent → Prop
  | .connected c, l => CEvent.connected c ∉ l ∧ CEvent.disconnected c ∉ l ∧ (∀ s, CEvent.authenticated c s ∉ l) ∧
      ∀ s d, CEvent.ended c s d ∉ l
  | .authenticated c s, l => CEvent.connected c ∈ l ∧ ∀ c' s', CEvent.authenticated c' s' ∈ l → s'.id ≠ s.id
  | .ended c s d, l => CEvent.connected c ∈ l ∧ CEvent.ended c s d ∉ l ∧ (d = true → CEvent.disconnected c ∉ l)
  | .disconnected c, l => CEvent.connected c ∈ l ∧ CEvent.disconnected c ∉ l

/-- A step calls no callback, or one whose conditions are met. -/
theorem cstep_log {a : Bool} {w w' : CWorld} (h : CInv w) (st : CStep a w w') :
    w'.log = w.log ∨ ∃ e, w'.log = w.log ++ [e] ∧ e.Pre w.log := by
  cases st
  case greet c k h1 h2 =>
    refine .inr ⟨_, rfl, ?_⟩
    have e1 := h.cIff c k h1
    have e2 := h.dIff c k h1
    have e3 := h.unacc c k h1
    have e4 := h.acc c k h1
    have e5 := h.early c k
    simp only [CEvent.Pre]
    refine ⟨by simp [e1, h2], by simp [e2, h2], fun s => ?_, fun s d => ?_⟩
    · have : k.accepted = false := by cases hb : k.accepted; rfl; exact absurd h2 (e4 hb).1
      exact ((e3 this).2 s).1
    · have : k.accepted = false := by cases hb : k.accepted; rfl; exact absurd h2 (e4 hb).1
      cases d
      · exact ((e3 this).2 s).2.2.2
      · exact e5 s h1 (by rw [h2]; rfl)
  case endOne c k s ss h1 h2 =>
    refine .inr ⟨_, rfl, (h.cIff c k h1).mpr (by rw [h2]; simp), ?_, fun _ hm => ?_⟩
    · exact (h.ending c k _ h1 h2).2 s (by simp)
    · rw [h.dIff c k h1, h2] at hm; cases hm
  case finish c k h1 h2 =>
    refine .inr ⟨_, rfl, (h.cIff c k h1).mpr (by rw [h2]; simp), fun hm => ?_⟩
    rw [h.dIff c k h1, h2] at hm; cases hm
  case announce c s l r h1 =>
    have hm : (c, s) ∈ w.auths := by rw [h1]; simp
    refine .inr ⟨_, rfl, ?_, fun c' s' hl he => h.authsL c s c' s' hm hl he.symm⟩
    cases hk : w.conns c with
    | none => exact absurd hm (h.noneAuth c s hk)
    | some k =>
      have : k.accepted = true := by
        cases hb : k.accepted
        · exact absurd hm ((h.unacc c k hk hb).2 s).2.1
        · rfl
      exact (h.cIff c k hk).mpr (h.acc c k hk this).1
  case announceEnd c s l r h1 =>
    have hm : (c, s) ∈ w.ends := by rw [h1]; simp
    refine .inr ⟨_, rfl, ?_, h.endsL c s hm, fun hd => by cases hd⟩
    cases hk : w.conns c with
    | none => exact absurd hm (h.noneEnds c s hk)
    | some k =>
      have : k.accepted = true := by
        cases hb : k.accepted
        · exact absurd hm ((h.unacc c k hk hb).2 s).2.2.1
        · rfl
      exact (h.cIff c k hk).mpr (h.acc c k hk this).1
  all_goals exact .inl rfl

theorem clog_pre {a : Bool} {w : CWorld} (r : CReach a w) : ∀ l e l', w.log = l ++ e :: l' → e.Pre l := by
  induction r with
  | refl => intro l e l' h; simp [CWorld.empty] at h
  | @step w0 w1 r s ih =>
    intro l e l' h
    rcases cstep_log (cinv_reach r) s with h1 | ⟨e1, h1, hp⟩
    · exact ih l e l' (h1 ▸ h)
    · rw [h1] at h
      rcases List.eq_nil_or_concat l' with rfl | ⟨l2, x, rfl⟩
      · have := List.append_inj' h rfl
        obtain ⟨h2, h3⟩ := this
        cases h3; rw [← h2]; exact hp
      · have h' : w0.log ++ [e1] = (l ++ e :: l2) ++ [x] := by rw [h]; simp
        exact ih l e l2 (List.append_inj' h' rfl).1

end Bonsai.Net
