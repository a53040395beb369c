import Verif.Net.ClientsInv

/-!
# C82: the list of clients, broadcasts and the order of the backend's callbacks
-/
set_option linter.unusedVariables false
set_option linter.unusedSimpArgs false

namespace Bonsai.Net

/-! ## The specification -/

/-- In the sequence of calls `log`, `x` comes before `y`: every `y` has an `x` in front of it. -/
def Precedes (log : List CEvent) (x y : CEvent) : Prop := ∀ l l', log = l ++ y :: l' → x ∈ l

/-- **C82 (the list of clients)**: `connected_clients` has exactly the clients that have been given an id and not yet
been taken off by the end of their connection, each once; no two have the same id; each says it is connected. -/
theorem C82_connected_clients {a : Bool} {w : CWorld} (r : CReach a w) {l : List Nat} (hl : w.Lists l) :
    l.Nodup ∧
    (∀ c, c ∈ l ↔ ∃ k, w.conns c = some k ∧ k.stage ∈ [.inserted, .greeting, .serving, .leaving]) ∧
    (∀ c k, c ∈ l → w.conns c = some k → k.connected = true) ∧
    (∀ c c' k k', c ∈ l → c' ∈ l → w.conns c = some k → w.conns c' = some k' → k.id = k'.id → c = c') := by
  have hm := (cinvMap_reach r).iff
  obtain ⟨ids, nd, hi, rfl⟩ := hl
  have hmem : ∀ c, c ∈ ids.filterMap w.map ↔ ∃ i, w.map i = some c := by
    intro c
    simp only [List.mem_filterMap]
    exact ⟨fun ⟨i, _, h⟩ => ⟨i, h⟩, fun ⟨i, h⟩ => ⟨i, (hi i).mpr (by rw [h]; rfl), h⟩⟩
  have hinj : ∀ i j c, w.map i = some c → w.map j = some c → i = j := by
    intro i j c h1 h2
    obtain ⟨k, hk, e, _⟩ := (hm i c).mp h1
    obtain ⟨k', hk', e', _⟩ := (hm j c).mp h2
    rw [hk] at hk'; cases hk'; rw [← e, ← e']
  have hlist : ∀ c, c ∈ ids.filterMap w.map ↔
      ∃ k, w.conns c = some k ∧ k.stage ∈ [CStage.inserted, .greeting, .serving, .leaving] := by
    intro c
    rw [hmem]
    constructor
    · rintro ⟨i, h⟩
      obtain ⟨k, hk, _, hs⟩ := (hm i c).mp h
      refine ⟨k, hk, ?_⟩
      cases e : k.stage <;> simp [e, CStage.listed] at hs ⊢
    · rintro ⟨k, hk, hs⟩
      refine ⟨k.id, (hm _ c).mpr ⟨k, hk, rfl, ?_⟩⟩
      cases e : k.stage <;> simp [e, CStage.listed] at hs ⊢
  refine ⟨?_, hlist, fun c k hc hk => ?_, fun c c' k k' hc hc' hk hk' e => ?_⟩
  · refine List.Pairwise.filterMap w.map ?_ nd
    intro i j hij c hc c' hc' e
    subst e
    exact hij (hinj i j c hc hc')
  · obtain ⟨k', hk', hs⟩ := (hlist c).mp hc
    rw [hk] at hk'; cases hk'
    refine ((cinv_reach r).conn c k hk).mpr (.inl ?_)
    cases e : k.stage <;> simp [e, CStage.listed] at hs ⊢
  · obtain ⟨i, h1⟩ := (hmem c).mp hc
    obtain ⟨j, h2⟩ := (hmem c').mp hc'
    obtain ⟨k1, hk1, e1, _⟩ := (hm i c).mp h1
    obtain ⟨k2, hk2, e2, _⟩ := (hm j c').mp h2
    rw [hk] at hk1; cases hk1
    rw [hk'] at hk2; cases hk2
    rw [← e1, e, e2, h2] at h1
    cases h1; rfl

/-- **C82 (broadcast)**: a broadcast reaches every listed client whose connection still sends, once, after what was sent
before and with no session; nobody else gets anything, and nothing else changes. -/
theorem C82_broadcast {a : Bool} {w : CWorld} (r : CReach a w) {l : List Nat} (hl : w.Lists l) (m : List UInt8) :
    CStep a w (w.broadcast m) ∧
    (∀ c k, w.conns c = some k → ∃ k', (w.broadcast m).conns c = some k' ∧
      (k'.outbox = if c ∈ l ∧ k.sink = true then k.outbox ++ [(none, m)] else k.outbox) ∧
      { k' with outbox := k.outbox } = k) ∧
    (∀ c, w.conns c = none → (w.broadcast m).conns c = none) ∧ (w.broadcast m).log = w.log ∧
    (w.broadcast m).Lists l := by
  have hl' := hl
  obtain ⟨ids, nd, hi, he⟩ := hl
  refine ⟨.broadcast m, fun c k hk => ?_, fun c hc => by simp [CWorld.broadcast, hc], rfl, hl'⟩
  have hmem : c ∈ l ↔ w.map k.id = some c := by
    rw [he]
    simp only [List.mem_filterMap]
    constructor
    · rintro ⟨i, _, h⟩
      obtain ⟨k', hk', e, _⟩ := ((cinvMap_reach r).iff i c).mp h
      rw [hk] at hk'; cases hk'; rw [e]; exact h
    · intro h; exact ⟨k.id, (hi _).mpr (by rw [h]; rfl), h⟩
  refine ⟨_, by simp only [CWorld.broadcast, hk, Option.map_some]; rfl, ?_, ?_⟩
  · by_cases hc : w.map k.id = some c
    · simp only [hmem, hc, if_true, CConn.send, true_and]
      split <;> rfl
    · simp [hmem, hc]
  · by_cases hc : w.map k.id = some c
    · simp only [hc, if_true, CConn.send]
      split <;> rfl
    · simp [hc]

/-- **C82 (order of the callbacks)**: of each client, `client_connected` is called first and once,
`client_disconnected` at most once; sessions are announced as authenticated at most once, whatever client they belong to;
the calls of `client_session_ended` made because of the disconnection come before `client_disconnected`. -/
theorem C82_order {a : Bool} {w : CWorld} (r : CReach a w) (c : Nat) :
    w.log.count (.connected c) ≤ 1 ∧ w.log.count (.disconnected c) ≤ 1 ∧
    Precedes w.log (.connected c) (.disconnected c) ∧
    (∀ s, Precedes w.log (.connected c) (.authenticated c s)) ∧
    (∀ s d, Precedes w.log (.connected c) (.ended c s d)) ∧
    (∀ s, w.log.count (.authenticated c s) ≤ 1) ∧
    (∀ s c' s', CEvent.authenticated c s ∈ w.log → CEvent.authenticated c' s' ∈ w.log → s.id = s'.id →
      c = c' ∧ s = s') ∧
    (∀ s d, w.log.count (.ended c s d) ≤ 1) ∧
    (∀ s l l', w.log = l ++ .ended c s true :: l' → CEvent.disconnected c ∉ l) := by
  have pre := clog_pre r
  have once : ∀ e : CEvent, (∀ l l', w.log = l ++ e :: l' → e ∉ l) → w.log.count e ≤ 1 := by
    intro e he
    generalize w.log = L at he
    induction L with
    | nil => simp
    | cons x L ih =>
      by_cases hx : x = e
      · subst hx
        have : x ∉ L := by
          intro hm
          obtain ⟨l1, l2, hs⟩ := List.append_of_mem hm
          exact he (x :: l1) l2 (by rw [hs]; rfl) (by simp)
        rw [List.count_cons_self, List.count_eq_zero.mpr this]; simp
      · have := ih (fun l l' h hm => he (x :: l) l' (by rw [h]; rfl) (by simp [hm]))
        rw [List.count_cons_of_ne hx]; exact this
  refine ⟨once _ fun l l' h => (pre l _ l' h).1, once _ fun l l' h => (pre l _ l' h).2,
    fun l l' h => (pre l _ l' h).1, fun s l l' h => (pre l _ l' h).1, fun s d l l' h => (pre l _ l' h).1,
    fun s => once _ fun l l' h hm => (pre l _ l' h).2 c s hm rfl, ?_,
    fun s d => once _ fun l l' h => (pre l _ l' h).2.1, fun s l l' h => (pre l _ l' h).2.2 rfl⟩
  intro s c' s' h1 h2 e
  by_cases heq : CEvent.authenticated c s = .authenticated c' s'
  · cases heq; exact ⟨rfl, rfl⟩
  · exfalso
    obtain ⟨l1, l2, hs⟩ := List.append_of_mem h1
    rw [hs] at h2
    rcases List.mem_append.mp h2 with h3 | h3
    · exact (pre l1 _ l2 hs).2 c' s' h3 e.symm
    · rcases List.mem_cons.mp h3 with h3 | h3
      · exact heq h3.symm
      · obtain ⟨m1, m2, hm⟩ := List.append_of_mem h3
        have : w.log = (l1 ++ .authenticated c s :: m1) ++ .authenticated c' s' :: m2 := by rw [hs, hm]; simp
        exact (pre _ _ _ this).2 c s (by simp) e

/-- Where a session of a client that was not lost is. -/
def Tracked (w : CWorld) (c : Nat) (s : CSession) : Prop :=
  (∃ k, w.conns c = some k ∧ k.stage.early = true ∧ s ∈ k.sessions) ∨
  (∃ k ss, w.conns c = some k ∧ k.stage = .ending ss ∧ s ∈ ss) ∨
  (c, s) ∈ w.ends ∨ ∃ d, CEvent.ended c s d ∈ w.log

theorem CConn.send_eq (k : CConn) (s : Option Nat) (m : List UInt8) :
    ∃ o, k.send s m = { k with outbox := o } := by
  unfold CConn.send; split
  · exact ⟨_, rfl⟩
  · exact ⟨k.outbox, rfl⟩

theorem tracked_same {w w' : CWorld} {c : Nat} {s : CSession}
    (h1 : ∀ k, w.conns c = some k → ∃ k', w'.conns c = some k' ∧ k'.stage = k.stage ∧ k'.sessions = k.sessions)
    (h2 : w'.ends = w.ends) (h3 : ∀ e, e ∈ w.log → e ∈ w'.log) (t : Tracked w c s) : Tracked w' c s := by
  rcases t with ⟨k, hk, he, hs⟩ | ⟨k, ss, hk, he, hs⟩ | h | ⟨d, h⟩
  · obtain ⟨k', hk', e1, e2⟩ := h1 k hk
    exact .inl ⟨k', hk', by rw [e1]; exact he, by rw [e2]; exact hs⟩
  · obtain ⟨k', hk', e1, e2⟩ := h1 k hk
    exact .inr (.inl ⟨k', ss, hk', by rw [e1]; exact he, hs⟩)
  · exact .inr (.inr (.inl (by rw [h2]; exact h)))
  · exact .inr (.inr (.inr ⟨d, h3 _ h⟩))

/-- A client has one session of an id. -/
def CUniq (w : CWorld) : Prop := ∀ c k s s', w.conns c = some k → s ∈ k.sessions → s' ∈ k.sessions → s.id = s'.id → s = s'

theorem cuniq_step {a : Bool} {w w' : CWorld} (h : CUniq w) (st : CStep a w w') : CUniq w' := by
  unfold CUniq at *
  cases st
  case skip h1 h2 => exact h
  case insert c ha h1 h2 =>
    simp only [CWorld.insert, CWorld.setC, CWorld.at, CConn.new]; grind
  case broadcast m =>
    intro c k' s s' e
    simp only [CWorld.broadcast, Option.map_eq_some_iff] at e
    obtain ⟨k, hk, rfl⟩ := e
    have e : (if w.map k.id = some c then k.send none m else k).sessions = k.sessions := by
      split <;> simp [CConn.send] <;> split <;> simp
    rw [e]; exact h c k s s' hk
  case send c k s m h1 =>
    obtain ⟨o, e⟩ := k.send_eq s m
    simp only [CWorld.setC, CWorld.at, e]; grind
  case announce => exact h
  case announceEnd => exact h
  all_goals
    simp only [CWorld.call, CWorld.setC, CWorld.at, CConn.loggedInAs, CConn.logOut]; grind

theorem cuniq_reach {a : Bool} {w : CWorld} (r : CReach a w) : CUniq w := by
  induction r with
  | refl => intro c k s s' h; cases h
  | step _ s ih => exact cuniq_step ih s

set_option maxHeartbeats 1000000 in
theorem tracked_step {a : Bool} {w w' : CWorld} {c : Nat} {s : CSession} (r : CReach a w)
    (t : Tracked w c s) (st : CStep a w w') : Tracked w' c s := by
  have bound := (cinv_reach r).bound
  have uniq := cuniq_reach r
  unfold CUniq at uniq
  cases st
  case skip h1 h2 => exact t
  case insert c' ha h1 h2 =>
    refine tracked_same (w := w) ?_ rfl (fun e he => he) t
    intro k hk
    refine ⟨k, ?_, rfl, rfl⟩
    have : c ≠ c' := by rintro rfl; rw [h1] at hk; cases hk
    simp [CWorld.insert, CWorld.setC, CWorld.at, this, hk]
  case broadcast m =>
    refine tracked_same (w := w) ?_ rfl (fun e he => he) t
    intro k hk
    refine ⟨_, by simp only [CWorld.broadcast, hk, Option.map_some]; rfl, ?_, ?_⟩ <;>
      (split <;> simp [CConn.send] <;> split <;> simp)
  case send c' k' s' m h1 =>
    obtain ⟨o, e⟩ := k'.send_eq s' m
    refine tracked_same (w := w) ?_ rfl (fun e he => he) t
    intro k hk
    simp only [CWorld.setC, CWorld.at, e]
    grind
  case announce c' s' l r h1 => exact tracked_same (w := w) (fun k hk => ⟨k, hk, rfl, rfl⟩) rfl (fun e he => by simp [CWorld.call, he]) t
  case close c' k' h1 =>
    refine tracked_same (w := w) ?_ rfl (fun e he => he) t
    intro k hk
    simp only [CWorld.setC, CWorld.at]
    grind
  case announceEnd c' s' l r h1 =>
    rcases t with h | h | h | ⟨d, h⟩
    · exact .inl h
    · exact .inr (.inl h)
    · rw [h1] at h
      by_cases e : (c, s) = (c', s')
      · cases e; exact .inr (.inr (.inr ⟨false, by simp [CWorld.call]⟩))
      · refine .inr (.inr (.inl ?_))
        simp only [CWorld.call]
        simp only [List.mem_append, List.mem_cons] at h ⊢
        rcases h with h | h | h
        · exact .inl h
        · exact absurd h e
        · exact .inr h
    · exact .inr (.inr (.inr ⟨d, by simp [CWorld.call, h]⟩))
  all_goals
    simp only [Tracked, CWorld.setC, CWorld.at, CWorld.call, CConn.loggedInAs, CConn.logOut, CStage.early] at *
    grind

theorem tracked_steps {a : Bool} {w w' : CWorld} {c : Nat} {s : CSession} (r : CReach a w) (st : CSteps a w w')
    (t : Tracked w c s) : CReach a w' ∧ Tracked w' c s := by
  induction st with
  | refl => exact ⟨r, t⟩
  | step _ s ih => exact ⟨.step ih.1 s, tracked_step ih.1 ih.2 s⟩

/-- **C82 (sessions end)**: a session a client has while it is connected has been announced as ended, or is just being
announced by the handler of its log-out, when the client is announced as disconnected. -/
theorem C82_sessions_end_partial {a : Bool} {w w' : CWorld} (r : CReach a w) (st : CSteps a w w') {c : Nat} {k : CConn}
    {s : CSession} (hk : w.conns c = some k) (hc : k.connected = true) (hs : s ∈ k.sessions)
    (hd : CEvent.disconnected c ∈ w'.log) : (∃ d, CEvent.ended c s d ∈ w'.log) ∨ (c, s) ∈ w'.ends := by
  have he : k.stage.early = true := by
    rcases ((cinv_reach r).conn c k hk).mp hc with h | h
    · cases e : k.stage <;> simp [e, CStage.listed, CStage.early] at h ⊢
    · rw [h]; rfl
  obtain ⟨r', t⟩ := tracked_steps r st (.inl ⟨k, hk, he, hs⟩)
  have hi := cinv_reach r'
  rcases t with ⟨k', hk', he, _⟩ | ⟨k', ss, hk', he, _⟩ | h | h
  · rw [hi.dIff c k' hk'] at hd; rw [hd] at he; cases he
  · rw [hi.dIff c k' hk'] at hd; rw [hd] at he; cases he
  · exact .inr h
  · exact .inl h

/-- Sessions come from logging in. -/
structure CInvLogin (w : CWorld) : Prop where
  sess : ∀ c k s, w.conns c = some k → s ∈ k.sessions →
    s = CSession.initial ∨ (c, s) ∈ w.auths ∨ CEvent.authenticated c s ∈ w.log
  ending : ∀ c k s ss, w.conns c = some k → k.stage = .ending ss → s ∈ ss →
    s = CSession.initial ∨ (c, s) ∈ w.auths ∨ CEvent.authenticated c s ∈ w.log
  ends : ∀ c s, (c, s) ∈ w.ends → (c, s) ∈ w.auths ∨ CEvent.authenticated c s ∈ w.log
  ended : ∀ c s d, CEvent.ended c s d ∈ w.log →
    (d = true ∧ s = CSession.initial) ∨ (c, s) ∈ w.auths ∨ CEvent.authenticated c s ∈ w.log

set_option maxHeartbeats 1000000 in
theorem cinvLogin_step {a : Bool} {w w' : CWorld} (h : CInvLogin w) (st : CStep a w w') : CInvLogin w' := by
  obtain ⟨sess, ending, ends, ended⟩ := h
  cases st
  case skip h1 h2 => exact ⟨sess, ending, ends, ended⟩
  case insert c ha h1 h2 =>
    constructor <;> simp only [CWorld.insert, CWorld.setC, CWorld.at, CConn.new] <;> grind
  case broadcast m =>
    have key : ∀ c k', (w.broadcast m).conns c = some k' → ∃ k, w.conns c = some k ∧ k'.stage = k.stage ∧
        k'.sessions = k.sessions := by
      intro c k' e
      simp only [CWorld.broadcast, Option.map_eq_some_iff] at e
      obtain ⟨k, hk, rfl⟩ := e
      refine ⟨k, hk, ?_⟩
      split <;> simp [CConn.send] <;> split <;> simp
    have e1 : (w.broadcast m).log = w.log := rfl
    have e2 : (w.broadcast m).auths = w.auths := rfl
    have e3 : (w.broadcast m).ends = w.ends := rfl
    constructor <;> grind
  case send c k s m h1 =>
    obtain ⟨o, e⟩ := k.send_eq s m
    constructor <;> simp only [CWorld.setC, CWorld.at, e] <;> grind
  case collect c k ss h1 h2 h3 =>
    have := fun s => h3.mem_iff (a := s)
    constructor <;> simp only [CWorld.setC, CWorld.at] <;> grind
  case logout c k s i h1 h2 h3 h4 =>
    constructor <;> simp only [CWorld.call, CWorld.setC, CWorld.at, CConn.logOut] <;> grind [CSession.initial]
  case endOne c k s ss h1 h2 =>
    have := ending c k s (s :: ss) h1 h2 (by simp)
    constructor <;> simp only [CWorld.call, CWorld.setC, CWorld.at] <;> grind
  all_goals
    constructor <;> simp only [CWorld.call, CWorld.setC, CWorld.at, CConn.loggedInAs] <;> grind

theorem cinvLogin_reach {a : Bool} {w : CWorld} (r : CReach a w) : CInvLogin w := by
  induction r with
  | refl => constructor <;> simp [CWorld.empty]
  | step _ s ih => exact cinvLogin_step ih s

/-- **C82 (only what was there ends)**: a session that is announced as ended was authenticated, by the same client: the
callback has been called for it, or its handler is about to; apart from the unauthenticated session at the
disconnection (`C82_violated_unauthenticated_session_ends`). -/
theorem C82_ended_was_authenticated_partial {a : Bool} {w : CWorld} (r : CReach a w) {c : Nat} {s : CSession} {d : Bool}
    (h : CEvent.ended c s d ∈ w.log) :
    (d = true ∧ s.id = none) ∨ (c, s) ∈ w.auths ∨ CEvent.authenticated c s ∈ w.log := by
  rcases (cinvLogin_reach r).ended c s d h with ⟨h1, h2⟩ | h
  · exact .inl ⟨h1, by rw [h2]; rfl⟩
  · exact .inr h

/-- **C82 (disconnected)**: once `client_disconnected` is called the client is not listed any more, says that it is not
connected, and a broadcast does not reach it. -/
theorem C82_disconnected {a : Bool} {w : CWorld} (r : CReach a w) {c : Nat} (h : CEvent.disconnected c ∈ w.log) :
    ∃ k, w.conns c = some k ∧ k.connected = false ∧ (∀ l, w.Lists l → c ∉ l) ∧
      ∀ m, (w.broadcast m).conns c = some k := by
  have hi := cinv_reach r
  cases hk : w.conns c with
  | none => exact absurd h (hi.noneLog c hk).2.1
  | some k =>
    have hg := (hi.dIff c k hk).mp h
    have hn : ∀ i, w.map i ≠ some c := by
      intro i hm
      obtain ⟨k', hk', _, hs⟩ := ((cinvMap_reach r).iff i c).mp hm
      rw [hk] at hk'; cases hk'; rw [hg] at hs; cases hs
    refine ⟨k, rfl, ?_, ?_, ?_⟩
    · cases hb : k.connected with
      | false => rfl
      | true => have := (hi.conn c k hk).mp hb; rw [hg] at this; simp [CStage.listed] at this
    · rintro l ⟨ids, _, _, rfl⟩ hm
      obtain ⟨i, _, e⟩ := List.mem_filterMap.mp hm
      exact hn i e
    · intro m; simp [CWorld.broadcast, hk, hn]

/-- **C82 (rejected)**: of a client that was not accepted no session is ever announced but the one it came with. -/
theorem C82_rejected {a : Bool} {w : CWorld} (r : CReach a w) {c : Nat} {k : CConn} (hk : w.conns c = some k)
    (hr : k.accepted = false) : (∀ s, CEvent.authenticated c s ∉ w.log) ∧ (∀ s, CEvent.ended c s false ∉ w.log) ∧
      k.sessions.map CSession.id = [none] := by
  have h := (cinv_reach r).unacc c k hk hr
  exact ⟨fun s => (h.2 s).1, fun s => (h.2 s).2.2.2, by rw [h.1]; rfl⟩

/-- **C82 (not allowed)**: when unauthenticated clients may not connect nobody is ever a client, and the backend is not
asked. -/
theorem C82_not_allowed {w : CWorld} (r : CReach false w) : (∀ c, w.conns c = none) ∧ w.log = [] := by
  have : (∀ c, w.conns c = none) ∧ w.log = [] ∧ w.auths = [] ∧ w.ends = [] := by
    induction r with
    | refl => exact ⟨fun _ => rfl, rfl, rfl, rfl⟩
    | step _ s ih =>
      obtain ⟨h1, h2, h3, h4⟩ := ih
      cases s
      case skip h _ => cases h
      case insert h _ _ => cases h
      case announce h => rw [h3] at h; simp at h
      case announceEnd h => rw [h4] at h; simp at h
      case broadcast m => exact ⟨fun c => by simp [CWorld.broadcast, h1], h2, h3, h4⟩
      all_goals simp_all
  exact ⟨this.1, this.2.1⟩

theorem ctry {w : CWorld} {c : Nat} (hc : w.conns c = none) :
    ∀ n, w.map ((w.counter + n) % 2 ^ 32) = none → w.counter < 2 ^ 32 →
    ∃ w' k, CSteps true w w' ∧ w'.conns c = some k ∧ k.stage = .inserted ∧ w'.map k.id = some c := by
  intro n
  induction n generalizing w with
  | zero =>
    intro h hb
    rw [Nat.add_zero, Nat.mod_eq_of_lt hb] at h
    refine ⟨_, _, .step .refl (.insert c rfl hc h), by simp [CWorld.insert, CWorld.setC, CWorld.at]; rfl, rfl, ?_⟩
    simp [CWorld.insert, CWorld.at, CConn.new]
  | succ n ih =>
    intro h hb
    by_cases h0 : (w.map w.counter).isSome
    · obtain ⟨w', k, st, h1, h2, h3⟩ := ih (w := w.bump) hc (by
        have : ((w.bump.counter + n) % 2 ^ 32) = (w.counter + (n + 1)) % 2 ^ 32 := by
          simp only [CWorld.bump, Nat.mod_add_mod]; congr 1; omega
        rw [this]; exact h) (Nat.mod_lt _ (by decide))
      refine ⟨w', k, ?_, h1, h2, h3⟩
      have s0 : CSteps true w w.bump := .step .refl (.skip rfl h0)
      clear h1 h2 h3
      induction st with
      | refl => exact s0
      | step _ s ih => exact .step ih s
    · have h0 : w.map w.counter = none := by simpa using h0
      refine ⟨_, _, .step .refl (.insert c rfl hc h0), by simp [CWorld.insert, CWorld.setC, CWorld.at]; rfl, rfl, ?_⟩
      simp [CWorld.insert, CWorld.at, CConn.new]

theorem ccounter_reach {a : Bool} {w : CWorld} (r : CReach a w) : w.counter < 2 ^ 32 := by
  induction r with
  | refl => decide
  | step _ s ih =>
    cases s <;> first | exact ih | exact Nat.mod_lt _ (by decide)

/-- **C82 (everybody gets an id)**: as long as not all 2^32 ids are in use a connection gets one of those that are not,
whatever the counter is at. -/
theorem C82_gets_id {w : CWorld} (r : CReach true w) {c : Nat} (hc : w.conns c = none) {i : Nat} (hi : i < 2 ^ 32)
    (hf : w.map i = none) :
    ∃ w' k, CSteps true w w' ∧ w'.conns c = some k ∧ k.stage = .inserted ∧ w'.map k.id = some c := by
  have hb := ccounter_reach r
  refine ctry hc (i + 2 ^ 32 - w.counter) ?_ hb
  have : (w.counter + (i + 2 ^ 32 - w.counter)) % 2 ^ 32 = i := by
    have : w.counter + (i + 2 ^ 32 - w.counter) = i + 2 ^ 32 := by omega
    rw [this, Nat.add_mod_right, Nat.mod_eq_of_lt hi]
  rw [this]; exact hf

theorem cends {a : Bool} {c : Nat} : ∀ (ss : List CSession) {w : CWorld} {k : CConn}, w.conns c = some k →
    k.stage = .ending ss → ∃ w', CSteps a w w' ∧ CEvent.disconnected c ∈ w'.log
  | [], w, k, hk, hs => ⟨_, .step .refl (.finish hk hs), by simp [CWorld.call]⟩
  | s :: ss, w, k, hk, hs => by
    obtain ⟨w', st, h⟩ := cends (a := a) (c := c) ss (w := (w.setC c { k with stage := .ending ss }).call (.ended c s true))
      (k := { k with stage := .ending ss }) (by simp [CWorld.call, CWorld.setC, CWorld.at]) rfl
    refine ⟨w', ?_, h⟩
    have s0 : CSteps a w _ := .step .refl (.endOne hk hs)
    clear h
    induction st with
    | refl => exact s0
    | step _ s ih => exact .step ih s

theorem csteps_trans {a : Bool} {w w' w'' : CWorld} (h : CSteps a w w') (h' : CSteps a w' w'') : CSteps a w w'' := by
  induction h' with
  | refl => exact h
  | step _ s ih => exact .step ih s

theorem setC_self (w : CWorld) (c : Nat) (k : CConn) : (w.setC c k).conns c = some k := by simp [CWorld.setC, CWorld.at]

theorem cends' {a : Bool} {c : Nat} {ss : List CSession} {w0 w : CWorld} {k : CConn} (s : CSteps a w0 w)
    (hk : w.conns c = some k) (hs : k.stage = .ending ss) : ∃ w', CSteps a w0 w' ∧ CEvent.disconnected c ∈ w'.log := by
  obtain ⟨w', st, h⟩ := cends (a := a) ss hk hs
  exact ⟨w', csteps_trans s st, h⟩

/-- **C82 (nobody stays)**: a client that left can always be announced as disconnected, whatever else goes on: nothing
else is waited for. -/
theorem C82_can_finish {a : Bool} {w : CWorld} {c : Nat} {k : CConn} (hk : w.conns c = some k)
    (hl : k.stage = .leaving) : ∃ w', CSteps a w w' ∧ CEvent.disconnected c ∈ w'.log := by
  have s1 : CSteps a w _ := .step .refl (.remove hk hl)
  have e1 : CWorld.conns { w.setC c { k with stage := .removed } with map := CWorld.at w.map k.id none } c =
    some { k with stage := .removed } := by simp [CWorld.setC, CWorld.at]
  have s2 := CSteps.step s1 (.mark e1 rfl)
  have s3 := CSteps.step s2 (.collect (c := c) (k := { k with stage := .marked, connected := false }) k.sessions
    (by simp [CWorld.setC, CWorld.at]) rfl (List.Perm.refl _))
  exact cends' s3 (setC_self _ _ _) rfl

/-- **C82 is violated**: with every client the end of a session is announced that was never authenticated, also for
clients that were rejected. -/
theorem C82_violated_unauthenticated_session_ends {a : Bool} {w : CWorld} (r : CReach a w) {c : Nat}
    (h : CEvent.disconnected c ∈ w.log) :
    CEvent.ended c ⟨none, false⟩ true ∈ w.log ∧ ∀ s, s.id = none → CEvent.authenticated c s ∉ w.log := by
  refine ⟨?_, fun s hs hm => ?_⟩
  · have key : ∀ w, CReach a w → (∃ k, w.conns c = some k) → Tracked w c CSession.initial := by
      intro w r
      induction r with
      | refl => rintro ⟨k, hk⟩; cases hk
      | @step w0 w1 r s ih =>
        rintro ⟨k, hk⟩
        cases h0 : w0.conns c with
        | some k0 => exact tracked_step r (ih ⟨k0, h0⟩) s
        | none =>
          have hi := cinv_reach (.step r s : CReach a w1)
          have hs : k.stage = .inserted := by
            cases s <;> simp only [CWorld.bump, CWorld.insert, CWorld.setC, CWorld.at, CWorld.call, CWorld.broadcast] at hk <;>
              grind [CConn.new]
          exact .inl ⟨k, hk, by rw [hs]; rfl, hi.initial c k hk⟩
    have hi := cinv_reach r
    cases hk : w.conns c with
    | none => exact absurd h (hi.noneLog c hk).2.1
    | some k =>
      have hg := (hi.dIff c k hk).mp h
      rcases key w r ⟨k, hk⟩ with ⟨k', hk', he, _⟩ | ⟨k', ss, hk', he, _⟩ | h | ⟨d, h⟩
      · rw [hk] at hk'; cases hk'; rw [hg] at he; cases he
      · rw [hk] at hk'; cases hk'; rw [hg] at he; cases he
      · obtain ⟨i, hi, _⟩ := hi.endsB _ _ h; cases hi
      · cases d
        · obtain ⟨i, hi, _⟩ := hi.endedB _ _ h; cases hi
        · exact h
  · obtain ⟨i, hi, _⟩ := (cinv_reach r).logB c s hm; rw [hs] at hi; cases hi

/-- A client with number 0 that connects and is accepted. -/
theorem exServing : CReach true (((CWorld.empty.insert 0).setC 0 { CConn.new 0 with stage := .greeting }).call
    (.connected 0) |>.setC 0 { CConn.new 0 with stage := .serving, accepted := true }) :=
  .step (.step (.step .refl (.insert 0 rfl rfl rfl)) (.greet (c := 0) (k := CConn.new 0) rfl rfl))
    (.accept (c := 0) (k := { CConn.new 0 with stage := .greeting }) rfl rfl)

/-- Its session. -/
def exSession : CSession := ⟨some 1, true⟩

/-- The client at a later stage. -/
def exK (st : CStage) (connected : Bool) : CConn :=
  ⟨0, st, [exSession, CSession.initial], connected, true, true, []⟩

/-- The client logs in and leaves. -/
theorem exLeft : ∃ w, CReach true w ∧ w.log = [.connected 0, .authenticated 0 exSession] ∧ w.auths = [] ∧ w.ends = [] ∧
    w.lastSession = 1 ∧
    w.conns 0 = some ⟨0, .leaving, [exSession, CSession.initial], true, true, true, []⟩ := by
  have e1 := CSteps.step exServing (.login (c := 0) (k := { CConn.new 0 with stage := .serving, accepted := true })
    true rfl rfl)
  have e2 := CSteps.step e1 (.announce (c := 0) (s := exSession) (l := []) (r := []) rfl)
  have e3 := CSteps.step e2 (.leave (c := 0) (k := ⟨0, .serving, [exSession, CSession.initial], true, true, true, []⟩)
    rfl rfl)
  exact ⟨_, e3, rfl, rfl, rfl, rfl, rfl⟩

/-- The client that left is announced as disconnected. -/
theorem exGone : ∃ w, CReach true w ∧ w.log = [.connected 0, .authenticated 0 exSession, .ended 0 exSession true,
      .ended 0 CSession.initial true, .disconnected 0] ∧ w.auths = [] ∧ w.ends = [] ∧ w.lastSession = 1 ∧
    w.conns 0 = some ⟨0, .gone, [exSession, CSession.initial], false, true, true, []⟩ := by
  obtain ⟨⟨cs, mp, ct, ls, lg, au, en⟩, r, h1, h2, h3, h4, h5⟩ := exLeft
  simp only at h1 h2 h3 h4 h5
  subst h1 h2 h3 h4
  have e1 := CSteps.step r (.remove (c := 0) h5 rfl)
  have e2 := CSteps.step e1 (.mark (c := 0) (k := exK .removed true) rfl rfl)
  have e3 := CSteps.step e2 (.collect (c := 0) (k := exK .marked false) [exSession, CSession.initial] rfl
    rfl (List.Perm.refl _))
  have e4 := CSteps.step e3 (.endOne (c := 0) (k := exK (.ending [exSession, CSession.initial]) false)
    rfl rfl)
  have e5 := CSteps.step e4 (.endOne (c := 0) (k := exK (.ending [CSession.initial]) false) rfl rfl)
  have e6 := CSteps.step e5 (.finish (c := 0) (k := exK (.ending []) false) rfl rfl)
  exact ⟨_, e6, rfl, rfl, rfl, rfl, rfl⟩

/-- **C82 is violated**: a session can be announced as ended twice, the second time, as not due to the disconnection,
after its client was announced as disconnected: a log-out that is handled while the client's connection has already
ended finds the session still there. -/
theorem C82_violated_ended_twice : ∃ w, CReach true w ∧ ∃ c s, w.log = [.connected c, .authenticated c s,
    .ended c s true, .ended c CSession.initial true, .disconnected c, .ended c s false] := by
  obtain ⟨⟨cs, mp, ct, ls, lg, au, en⟩, r, h1, h2, h3, h4, h5⟩ := exGone
  simp only at h1 h2 h3 h4 h5
  subst h1 h2 h3 h4
  have e1 := CSteps.step r (.logout (c := 0) (s := exSession) (i := 1) h5 rfl (by simp) rfl)
  have e2 := CSteps.step e1 (.announceEnd (c := 0) (s := exSession) (l := []) (r := []) rfl)
  exact ⟨_, e2, 0, exSession, rfl⟩

/-- **C82 is violated**: a log-in that is handled while the client's connection has already ended is announced after the
client was announced as disconnected, and the end of that session never is, though no handler has anything left to do. -/
theorem C82_violated_authenticated_after_disconnect : ∃ w, CReach true w ∧ w.auths = [] ∧ w.ends = [] ∧ ∃ c s l,
    w.log = l ++ [.disconnected c, .authenticated c s] ∧ ∀ d, CEvent.ended c s d ∉ w.log := by
  obtain ⟨⟨cs, mp, ct, ls, lg, au, en⟩, r, h1, h2, h3, h4, h5⟩ := exGone
  simp only at h1 h2 h3 h4 h5
  subst h1 h2 h3 h4
  have e1 := CSteps.step r (.login (c := 0) true h5 rfl)
  have e2 := CSteps.step e1 (.announce (c := 0) (s := ⟨some 2, true⟩) (l := []) (r := []) rfl)
  exact ⟨_, e2, rfl, rfl, 0, ⟨some 2, true⟩, [.connected 0, .authenticated 0 exSession, .ended 0 exSession true,
      .ended 0 CSession.initial true], rfl, by intro d; cases d <;> simp [CWorld.call, CWorld.setC, exSession, CSession.initial]⟩

/-- **C82 is violated**: the first half of logging in with a token is announced as an authentication, though the session
has no identity, and for as long as the client likes nothing else happens. -/
theorem C82_violated_challenge_announced : ∃ w, CReach true w ∧ ∃ c s k, CEvent.authenticated c s ∈ w.log ∧
    s.identity = false ∧ w.conns c = some k ∧ k.stage = .serving ∧ ∀ t ∈ k.sessions, t.identity = false := by
  have e1 := CSteps.step exServing (.login (c := 0) (k := { CConn.new 0 with stage := .serving, accepted := true })
    false rfl rfl)
  have e2 := CSteps.step e1 (.announce (c := 0) (s := ⟨some 1, false⟩) (l := []) (r := []) rfl)
  refine ⟨_, e2, 0, ⟨some 1, false⟩, ⟨0, .serving, [⟨some 1, false⟩, CSession.initial], true, true, true, []⟩, ?_, rfl,
    rfl, rfl, ?_⟩
  · simp [CWorld.call]
  · decide

/-- The listing of the server with the one accepted client, and what a broadcast does to it. -/
example : ∃ w, CReach true w ∧ w.Lists [0] ∧ ∃ k, (w.broadcast [1, 2]).conns 0 = some k ∧ k.outbox = [(none, [1, 2])] :=
  ⟨_, exServing, ⟨[0], by simp, by
    intro i; simp only [CWorld.setC, CWorld.call, CWorld.insert, CWorld.at, CWorld.empty]; by_cases h : i = 0 <;> simp [h],
    rfl⟩, _, rfl, rfl⟩

/-- The hypotheses of `C82_sessions_end_partial`, `C82_disconnected` and `C82_can_finish` are met. -/
example : ∃ w w', CReach true w ∧ CSteps true w w' ∧ (∃ k, w.conns 0 = some k ∧ k.connected = true ∧
    exSession ∈ k.sessions ∧ k.stage = .leaving) ∧ CEvent.disconnected 0 ∈ w'.log := by
  obtain ⟨w, r, _, _, _, _, h⟩ := exLeft
  obtain ⟨w', st, hd⟩ := C82_can_finish (a := true) h rfl
  exact ⟨w, w', r, st, ⟨_, h, rfl, by simp, rfl⟩, hd⟩

/-- A rejected client. -/
example : ∃ w k, CReach true w ∧ w.conns 0 = some k ∧ k.accepted = false ∧ CEvent.connected 0 ∈ w.log :=
  ⟨_, _, .step (.step (.step .refl (.insert 0 rfl rfl rfl)) (.greet (c := 0) (k := CConn.new 0) rfl rfl))
    (.reject (c := 0) (k := { CConn.new 0 with stage := .greeting }) rfl rfl), rfl, rfl, by simp [CWorld.setC, CWorld.call]⟩

end Bonsai.Net
