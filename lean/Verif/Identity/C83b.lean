import Verif.Identity.C83

/-!
# C83: the pool of hashing threads
-/
set_option linter.unusedVariables false
set_option linter.unusedSimpArgs false

namespace Bonsai.Argon

variable {K : Crypto} {checked : Bool} {cfg : Config} {hashers : Nat}

/-- The password fits the saved hash: it is a hash of it, with the salt and the parameters written there. -/
def Fits (K : Crypto) (password saved : Bytes) : Prop :=
  ∃ h, K.parse saved = some h ∧ K.valid h.params = true ∧ K.argon h.params h.salt password = h.out

/-- What holds between the steps. -/
structure PInv (K : Crypto) (checked : Bool) (cfg : Config) (hashers : Nat) (σ : Pool) : Prop where
  len : σ.threads.length = max hashers 1
  queued : ∀ i, i ∈ σ.queue ↔ ∃ r, σ.calls i = some ⟨r, .queued⟩
  nodup : σ.queue.Nodup
  busy : ∀ (t i : Nat), σ.threads[t]? = some (Thread.busy i) → ∃ r, σ.calls i = some ⟨r, .running⟩
  running : ∀ (i : Nat) (r : Req), σ.calls i = some ⟨r, .running⟩ → ∃ t : Nat, σ.threads[t]? = some (Thread.busy i)
  uniq : ∀ (t t' i : Nat), σ.threads[t]? = some (Thread.busy i) → σ.threads[t']? = some (Thread.busy i) → t = t'
  template : ∀ x, σ.template = some x → Template K checked cfg (some x)
  verified : ∀ i r s x, σ.calls i = some ⟨r, .answered x⟩ → r.against = some s →
    x = verifyAnswer K r s ∨ x = .internalCommunication
  hashed : ∀ i r x, σ.calls i = some ⟨r, .answered x⟩ → r.against = none →
    (∃ y salt, σ.template = some y ∧ x = hashAnswer K y r salt) ∨ x = .internalCommunication
  internal : ∀ i r, σ.calls i = some ⟨r, .answered .internalCommunication⟩ → Thread.dead ∈ σ.threads
  dead : Thread.dead ∈ σ.threads → Template K checked cfg none

theorem verifyAnswer_ne (K : Crypto) (r : Req) (s : Bytes) : verifyAnswer K r s ≠ .internalCommunication := by
  unfold verifyAnswer; split
  · simp
  · split <;> simp

theorem hashAnswer_ne (K : Crypto) (y : Option Params) (r : Req) (s : Bytes) :
    hashAnswer K y r s ≠ .internalCommunication := by
  unfold hashAnswer; split
  · simp
  · split <;> simp

theorem set_get {l : List Thread} {t u : Nat} {s x : Thread} (h : (l.set t s)[u]? = some x) :
    (u = t ∧ x = s) ∨ (u ≠ t ∧ l[u]? = some x) := by
  rw [List.getElem?_set] at h
  split at h
  · split at h
    · cases h; exact .inl ⟨by omega, rfl⟩
    · cases h
  · exact .inr ⟨by omega, h⟩

theorem set_mem_dead {l : List Thread} {t : Nat} {s : Thread} (hs : s ≠ .dead) (hl : l[t]? ≠ some .dead) :
    Thread.dead ∈ l.set t s ↔ Thread.dead ∈ l := by
  constructor
  · intro h
    obtain ⟨u, hu⟩ := List.mem_iff_getElem?.mp h
    rcases set_get hu with ⟨_, h⟩ | ⟨_, h⟩
    · exact absurd h.symm hs
    · exact List.mem_iff_getElem?.mpr ⟨u, h⟩
  · intro h
    obtain ⟨u, hu⟩ := List.mem_iff_getElem?.mp h
    refine List.mem_iff_getElem?.mpr ⟨u, ?_⟩
    rw [List.getElem?_set]
    split
    · subst_vars; exact absurd hu hl
    · exact hu

theorem set_self {l : List Thread} {t : Nat} {s x : Thread} (h : l[t]? = some x) : (l.set t s)[t]? = some s := by
  rw [List.getElem?_set]
  have := (List.getElem?_eq_some_iff.mp h).1
  simp [this]

theorem set_other {l : List Thread} {t u : Nat} {s : Thread} (h : u ≠ t) : (l.set t s)[u]? = l[u]? := by
  rw [List.getElem?_set, if_neg (by omega)]

theorem pinv_new : PInv K checked cfg hashers (Pool.new hashers) := by
  refine ⟨by simp [Pool.new], by simp [Pool.new], by simp [Pool.new], ?_, by simp [Pool.new], ?_, by simp [Pool.new],
    by simp [Pool.new], by simp [Pool.new], by simp [Pool.new], ?_⟩
  · intro t i h; simp [Pool.new, List.getElem?_replicate] at h
  · intro t t' i h; simp [Pool.new, List.getElem?_replicate] at h
  · intro h; simp [Pool.new] at h

set_option maxHeartbeats 2000000 in
theorem pinv_step {σ σ' : Pool} (h : PInv K checked cfg hashers σ) (st : Step K checked cfg σ σ') :
    PInv K checked cfg hashers σ' := by
  obtain ⟨len, queued, nodup, busy, running, uniq, template, verified, hashed, internal, dead⟩ := h
  cases st
  case submit i r h1 h2 =>
    constructor <;> simp only [Pool.setCall, Pool.setThread]
    case queued =>
      intro j
      by_cases e : j = i
      · subst e; simp
      · simp [e, queued j]
    all_goals grind
  case refuse i r h1 h2 =>
    have hd : Thread.dead ∈ σ.threads := by
      have : σ.threads.length ≠ 0 := by omega
      cases ht : σ.threads with
      | nil => simp [ht] at this
      | cons a l =>
        have : a = .dead := Classical.byContradiction fun hn => h2 ⟨a, by simp [ht], hn⟩
        simp [this]
    constructor <;> simp only [Pool.setCall, Pool.setThread] <;> grind
  case take i t q r h1 h2 h3 =>
    have hm := set_mem_dead (l := σ.threads) (t := t) (s := .busy i) (by simp) (by rw [h2]; simp)
    have hs := fun s => set_self (s := s) h2
    have ho := fun u s (h : u ≠ t) => set_other (l := σ.threads) (s := s) h
    constructor <;> simp only [Pool.setCall, Pool.setThread]
    case queued =>
      intro j
      have hq := queued j
      rw [h1] at hq nodup
      by_cases e : j = i
      · subst e; simp at nodup; simp [nodup.1]
      · simp [e] at hq ⊢; exact hq
    case busy =>
      intro u j hu
      rcases set_get hu with ⟨_, h⟩ | ⟨_, h⟩
      · cases h; exact ⟨r, by simp⟩
      · obtain ⟨r', hr'⟩ := busy u j h
        by_cases e : j = i
        · subst e; rw [h3] at hr'; cases hr'
        · exact ⟨r', by simp [e, hr']⟩
    case uniq =>
      intro u u' j hu hu'
      rcases set_get hu with ⟨h4, h⟩ | ⟨h4, h⟩ <;> rcases set_get hu' with ⟨h5, h'⟩ | ⟨h5, h'⟩
      · rw [h4, h5]
      · cases h; obtain ⟨r', hr'⟩ := busy u' i h'; rw [h3] at hr'; cases hr'
      · cases h'; obtain ⟨r', hr'⟩ := busy u i h; rw [h3] at hr'; cases hr'
      · exact uniq u u' j h h'
    case running =>
      intro j r' hr'
      split at hr'
      · subst_vars; exact ⟨t, hs _⟩
      · obtain ⟨u, hu⟩ := running j r' hr'
        exact ⟨u, by rw [ho u _ (by rintro rfl; rw [h2] at hu; cases hu)]; exact hu⟩
    all_goals grind
  case verify i t r saved h1 h2 h3 =>
    have hm := set_mem_dead (l := σ.threads) (t := t) (s := .idle) (by simp) (by rw [h1]; simp)
    have hs := fun s => set_self (s := s) h1
    have ho := fun u s (h : u ≠ t) => set_other (l := σ.threads) (s := s) h
    have hne := verifyAnswer_ne K r saved
    constructor <;> simp only [Pool.setCall, Pool.setThread]
    case busy =>
      intro u j hu
      rcases set_get hu with ⟨_, h⟩ | ⟨h5, h⟩
      · cases h
      · obtain ⟨r', hr'⟩ := busy u j h
        by_cases e : j = i
        · subst e; exact absurd (uniq u t _ h h1) h5
        · exact ⟨r', by simp [e, hr']⟩
    case uniq =>
      intro u u' j hu hu'
      rcases set_get hu with ⟨h4, h⟩ | ⟨h4, h⟩ <;> rcases set_get hu' with ⟨h5, h'⟩ | ⟨h5, h'⟩
      · cases h
      · cases h
      · cases h'
      · exact uniq u u' j h h'
    case running =>
      intro j r' hr'
      split at hr'
      · cases hr'
      · rename_i hn
        obtain ⟨u, hu⟩ := running j r' hr'
        exact ⟨u, by rw [ho u _ (by rintro rfl; rw [h1] at hu; cases hu; exact hn rfl)]; exact hu⟩
    all_goals grind
  case init i t r x h1 h2 h3 h4 h5 =>
    constructor <;> simp only [Pool.setCall, Pool.setThread] <;> grind
  case die i t r h1 h2 h3 h4 h5 =>
    have hs := fun s => set_self (s := s) h1
    have ho := fun u s (h : u ≠ t) => set_other (l := σ.threads) (s := s) h
    have hd : Thread.dead ∈ σ.threads.set t .dead := List.mem_iff_getElem?.mpr ⟨t, hs _⟩
    constructor <;> simp only [Pool.setCall, Pool.setThread]
    case busy =>
      intro u j hu
      rcases set_get hu with ⟨_, h⟩ | ⟨h5, h⟩
      · cases h
      · obtain ⟨r', hr'⟩ := busy u j h
        by_cases e : j = i
        · subst e; exact absurd (uniq u t _ h h1) h5
        · exact ⟨r', by simp [e, hr']⟩
    case uniq =>
      intro u u' j hu hu'
      rcases set_get hu with ⟨h4, h⟩ | ⟨h4, h⟩ <;> rcases set_get hu' with ⟨h5, h'⟩ | ⟨h5, h'⟩
      · cases h
      · cases h
      · cases h'
      · exact uniq u u' j h h'
    case running =>
      intro j r' hr'
      split at hr'
      · cases hr'
      · rename_i hn
        obtain ⟨u, hu⟩ := running j r' hr'
        exact ⟨u, by rw [ho u _ (by rintro rfl; rw [h1] at hu; cases hu; exact hn rfl)]; exact hu⟩
    all_goals grind
  case hash i t r x salt h1 h2 h3 h4 =>
    have hm := set_mem_dead (l := σ.threads) (t := t) (s := .idle) (by simp) (by rw [h1]; simp)
    have hs := fun s => set_self (s := s) h1
    have ho := fun u s (h : u ≠ t) => set_other (l := σ.threads) (s := s) h
    have hne := hashAnswer_ne K x r salt
    constructor <;> simp only [Pool.setCall, Pool.setThread]
    case busy =>
      intro u j hu
      rcases set_get hu with ⟨_, h⟩ | ⟨h5, h⟩
      · cases h
      · obtain ⟨r', hr'⟩ := busy u j h
        by_cases e : j = i
        · subst e; exact absurd (uniq u t _ h h1) h5
        · exact ⟨r', by simp [e, hr']⟩
    case uniq =>
      intro u u' j hu hu'
      rcases set_get hu with ⟨h4, h⟩ | ⟨h4, h⟩ <;> rcases set_get hu' with ⟨h5, h'⟩ | ⟨h5, h'⟩
      · cases h
      · cases h
      · cases h'
      · exact uniq u u' j h h'
    case running =>
      intro j r' hr'
      split at hr'
      · cases hr'
      · rename_i hn
        obtain ⟨u, hu⟩ := running j r' hr'
        exact ⟨u, by rw [ho u _ (by rintro rfl; rw [h1] at hu; cases hu; exact hn rfl)]; exact hu⟩
    all_goals grind

theorem pinv_steps {σ σ' : Pool} (h : PInv K checked cfg hashers σ) (r : Steps K checked cfg σ σ') :
    PInv K checked cfg hashers σ' := by
  induction r with
  | refl => exact h
  | step _ s ih => exact pinv_step ih s

theorem pinv_reach {σ : Pool} (r : Reach K checked cfg hashers σ) : PInv K checked cfg hashers σ := pinv_steps pinv_new r

theorem verifyAnswer_spec (K : Crypto) (r : Req) (s : Bytes) :
    (Fits K r.password s → verifyAnswer K r s = .verified) ∧
    (¬ Fits K r.password s → verifyAnswer K r s = .invalidCredentials) := by
  unfold verifyAnswer Fits
  constructor
  · rintro ⟨h, h1, h2, h3⟩
    rw [h1]; simp [h2, h3]
  · intro hn
    cases hp : K.parse s with
    | none => rfl
    | some h =>
      simp only
      rw [if_neg]
      rintro ⟨h2, h3⟩
      exact hn ⟨h, hp, h2, h3⟩

/-- **C83 (answers)**: every call gets the answer to its own request: verifying says whether the password fits the
saved hash, hashing gives a hash that the password fits; only after a thread panicked may a call fail with an internal
error instead. -/
theorem C83_answers {σ : Pool} (h : Reach K checked cfg hashers σ) {i : Nat} {r : Req} {x : Res}
    (hc : σ.calls i = some ⟨r, .answered x⟩) :
    (∀ saved, r.against = some saved →
      (x = .verified ∧ Fits K r.password saved) ∨ (x = .invalidCredentials ∧ ¬ Fits K r.password saved) ∨
      (x = .internalCommunication ∧ Thread.dead ∈ σ.threads)) ∧
    (r.against = none →
      (∃ s, x = .hashed s ∧ Fits K r.password s) ∨ x = .failed ∨
      (x = .internalCommunication ∧ Thread.dead ∈ σ.threads)) := by
  have inv := pinv_reach h
  refine ⟨fun saved ha => ?_, fun ha => ?_⟩
  · rcases inv.verified i r saved x hc ha with rfl | rfl
    · by_cases hf : Fits K r.password saved
      · exact .inl ⟨(verifyAnswer_spec K r saved).1 hf, hf⟩
      · exact .inr (.inl ⟨(verifyAnswer_spec K r saved).2 hf, hf⟩)
    · exact .inr (.inr ⟨rfl, inv.internal i r hc⟩)
  · rcases inv.hashed i r x hc ha with ⟨y, salt, _, rfl⟩ | rfl
    · unfold hashAnswer
      split
      · exact .inr (.inl rfl)
      · split
        · rename_i hv
          exact .inl ⟨_, rfl, _, K.parse_render _, hv, rfl⟩
        · exact .inr (.inl rfl)
    · exact .inr (.inr ⟨rfl, inv.internal i r hc⟩)

/-- **C83 (what was hashed verifies)**: verifying a password against a hash that another call returned succeeds for the
password that was hashed, and, if Argon2 has no collisions, for no other. -/
theorem C83_roundtrip {σ σ' : Pool} (h : Reach K checked cfg hashers σ) (st : Steps K checked cfg σ σ')
    {i j : Nat} {ri rj : Req} {s : Bytes} {x : Res} (hi : σ.calls i = some ⟨ri, .answered (.hashed s)⟩)
    (hj : σ'.calls j = some ⟨rj, .answered x⟩) (ha : rj.against = some s) (hx : x ≠ .internalCommunication) :
    (rj.password = ri.password → x = .verified) ∧
    ((∀ p salt a b, K.argon p salt a = K.argon p salt b → a = b) → rj.password ≠ ri.password → x = .invalidCredentials) := by
  have inv := pinv_reach h
  have inv' := pinv_steps inv st
  have hs : ∃ p salt, s = K.render ⟨p, salt, K.argon p salt ri.password⟩ ∧ K.valid p = true := by
    cases hag : ri.against with
    | some sv =>
      rcases inv.verified i ri sv _ hi hag with e | e
      · unfold verifyAnswer at e; split at e
        · cases e
        · split at e <;> cases e
      · cases e
    | none =>
      rcases inv.hashed i ri _ hi hag with ⟨y, salt, _, e⟩ | e
      · unfold hashAnswer at e
        split at e
        · cases e
        · split at e
          · cases e; exact ⟨_, _, rfl, by assumption⟩
          · cases e
      · cases e
  obtain ⟨p, salt, rfl, hv⟩ := hs
  have hr : x = verifyAnswer K rj (K.render ⟨p, salt, K.argon p salt ri.password⟩) := by
    rcases inv'.verified j rj _ x hj ha with e | e
    · exact e
    · exact absurd e hx
  subst hr
  refine ⟨fun e => ?_, fun inj hne => ?_⟩
  · exact (verifyAnswer_spec K rj _).1 ⟨_, K.parse_render _, hv, by simp [e]⟩
  · refine (verifyAnswer_spec K rj _).2 ?_
    rintro ⟨h, h1, h2, h3⟩
    rw [K.parse_render] at h1; cases h1
    exact hne (inj _ _ _ _ h3)

/-- **C83 (strength)**: with timed parameters every hash has the configured memory and lanes and the user's id as data,
and its cost is that of a calibration: at least 2, and a run with it lasted the minimum duration. -/
theorem C83_strength {σ : Pool} {p : Params} {minimum : Nat} (h : Reach K true (.timed p minimum) hashers σ) {i : Nat}
    {r : Req} {s : Bytes} (hc : σ.calls i = some ⟨r, .answered (.hashed s)⟩) :
    ∃ ph rs e, K.parse s = some ph ∧ ph.params.algorithm = p.algorithm ∧ ph.params.m = p.m ∧ ph.params.p = p.p ∧
      ph.params.data = toBE 8 r.id ∧ 2 ≤ ph.params.t ∧ minimum ≤ e ∧
      CalRun minimum true (fun t => K.valid { p with t := t, data := toBE 8 0 }) Cal.start
        (rs ++ [(ph.params.t, some e)]) (.ok ph.params.t) := by
  have inv := pinv_reach h
  cases hag : r.against with
  | some sv =>
    rcases inv.verified i r sv _ hc hag with e | e
    · unfold verifyAnswer at e; split at e
      · cases e
      · split at e <;> cases e
    · cases e
  | none =>
    rcases inv.hashed i r _ hc hag with ⟨y, salt, hy, e⟩ | e
    · unfold hashAnswer at e
      split at e
      · cases e
      · rename_i q
        split at e
        · cases e
          have ht := inv.template _ hy
          cases ht with
          | ok hcal =>
            obtain ⟨h1, h2, rs', e, h3, h4, h5⟩ := C83_calibration hcal (.inl rfl)
            subst h3
            exact ⟨_, rs', e, K.parse_render _, rfl, rfl, rfl, rfl, h1, h4, hcal⟩
        · cases e
    · cases e

/-- **C83 (one strength)**: all the hashes of a pool have the same parameters, apart from the user's id. -/
theorem C83_same_params {σ : Pool} (h : Reach K checked cfg hashers σ) {i j : Nat} {ri rj : Req} {s s' : Bytes}
    (hi : σ.calls i = some ⟨ri, .answered (.hashed s)⟩) (hj : σ.calls j = some ⟨rj, .answered (.hashed s')⟩) :
    ∃ ph ph', K.parse s = some ph ∧ K.parse s' = some ph' ∧
      { ph.params with data := [] } = { ph'.params with data := [] } ∧
      ph.params.data = toBE 8 ri.id ∧ ph'.params.data = toBE 8 rj.id := by
  have inv := pinv_reach h
  have key : ∀ {i : Nat} {r : Req} {s : Bytes}, σ.calls i = some ⟨r, .answered (.hashed s)⟩ →
      ∃ q salt, σ.template = some (some q) ∧
        s = K.render ⟨q.forUser r.id, salt, K.argon (q.forUser r.id) salt r.password⟩ := by
    intro i r s hc
    cases hag : r.against with
    | some sv =>
      rcases inv.verified i r sv _ hc hag with e | e
      · unfold verifyAnswer at e; split at e
        · cases e
        · split at e <;> cases e
      · cases e
    | none =>
      rcases inv.hashed i r _ hc hag with ⟨y, salt, hy, e⟩ | e
      · unfold hashAnswer at e
        split at e
        · cases e
        · split at e
          · cases e; exact ⟨_, _, hy, rfl⟩
          · cases e
      · cases e
  obtain ⟨q, salt, h1, rfl⟩ := key hi
  obtain ⟨q', salt', h1', rfl⟩ := key hj
  rw [h1] at h1'; cases h1'
  exact ⟨_, _, K.parse_render _, K.parse_render _, rfl, rfl, rfl⟩

/-- **C83 (explicit parameters)**: with explicit parameters no thread ever dies and no call fails with an internal
error. -/
theorem C83_explicit_params {σ : Pool} {p : Params} (h : Reach K checked (.params p) hashers σ) :
    Thread.dead ∉ σ.threads ∧ ∀ i r, σ.calls i ≠ some ⟨r, .answered .internalCommunication⟩ := by
  have inv := pinv_reach h
  have hd : Thread.dead ∉ σ.threads := fun hd => by have := inv.dead hd; cases this
  exact ⟨hd, fun i r hc => hd (inv.internal i r hc)⟩

theorem steps_trans {σ σ' σ'' : Pool} (h : Steps K checked cfg σ σ') (h' : Steps K checked cfg σ' σ'') :
    Steps K checked cfg σ σ'' := by
  induction h' with
  | refl => exact h
  | step _ s ih => exact .step ih s

/-- A busy thread can finish once there is a template. -/
theorem finish_busy {σ : Pool} {x : Option Params} (hx : σ.template = some x) {t i : Nat} {r : Req}
    (ht : σ.threads[t]? = some (.busy i)) (hc : σ.calls i = some ⟨r, .running⟩) :
    ∃ σ' y, Steps K checked cfg σ σ' ∧ σ'.template = some x ∧ σ'.threads[t]? = some .idle ∧
      σ'.calls i = some ⟨r, .answered y⟩ ∧ σ'.queue = σ.queue := by
  cases ha : r.against with
  | some s =>
    exact ⟨_, _, .step .refl (.verify ht hc ha), hx, set_self ht, by simp [Pool.setCall]; rfl, rfl⟩
  | none =>
    exact ⟨_, _, .step .refl (.hash [] ht hc ha hx), hx, set_self ht, by simp [Pool.setCall]; rfl, rfl⟩

theorem drain {x : Option Params} {t : Nat} {i : Nat} : ∀ (q : List Nat) {σ : Pool} {q' : List Nat},
    Reach K checked cfg hashers σ → σ.template = some x → σ.threads[t]? = some .idle → σ.queue = q ++ i :: q' →
    ∃ σ' r y, Steps K checked cfg σ σ' ∧ σ'.calls i = some ⟨r, .answered y⟩
  | [], σ, q', hr, hx, ht, hq => by
    obtain ⟨r, hc⟩ := ((pinv_reach hr).queued i).mp (by rw [hq]; simp)
    have s1 : Steps K checked cfg σ _ := .step .refl (.take hq ht hc)
    obtain ⟨σ', y, st, _, _, h, _⟩ := finish_busy (K := K) (checked := checked) (cfg := cfg)
      (σ := ({ σ with queue := q' }.setThread t (.busy i)).setCall i ⟨r, .running⟩) (i := i) (r := r) (t := t) hx
      (set_self ht) (by simp [Pool.setCall])
    exact ⟨σ', r, y, steps_trans s1 st, h⟩
  | j :: q, σ, q', hr, hx, ht, hq => by
    obtain ⟨r, hc⟩ := ((pinv_reach hr).queued j).mp (by rw [hq]; simp)
    have s1 : Steps K checked cfg σ _ := .step .refl (.take hq ht hc)
    obtain ⟨σ', y, st, h1, h2, h3, h4⟩ := finish_busy (K := K) (checked := checked) (cfg := cfg)
      (σ := ({ σ with queue := q ++ i :: q' }.setThread t (.busy j)).setCall j ⟨r, .running⟩) (i := j) (r := r) (t := t)
      hx (set_self ht) (by simp [Pool.setCall])
    have s2 := steps_trans s1 st
    obtain ⟨σ'', r', y', st', h'⟩ := drain q (steps_trans hr s2) h1 h2 h4
    exact ⟨σ'', r', y', steps_trans s2 st', h'⟩

/-- **C83 (nobody waits for ever)**: once the parameters are known, and as long as a thread lives, every call can be
answered, whatever the other threads are at. -/
theorem C83_progress {σ : Pool} {x : Option Params} (h : Reach K checked cfg hashers σ) (hx : σ.template = some x)
    (ha : σ.Alive) {i : Nat} {c : Call} (hc : σ.calls i = some c) :
    ∃ σ' r y, Steps K checked cfg σ σ' ∧ σ'.calls i = some ⟨r, .answered y⟩ := by
  have inv := pinv_reach h
  obtain ⟨r, s⟩ := c
  cases s with
  | answered y => exact ⟨σ, r, y, .refl, hc⟩
  | running =>
    obtain ⟨t, ht⟩ := inv.running i r hc
    obtain ⟨σ', y, st, _, _, h', _⟩ := finish_busy (K := K) (checked := checked) (cfg := cfg) hx ht hc
    exact ⟨σ', r, y, st, h'⟩
  | queued =>
    obtain ⟨a, ham, had⟩ := ha
    obtain ⟨t, ht⟩ := List.mem_iff_getElem?.mp ham
    have hq := (inv.queued i).mpr ⟨r, hc⟩
    obtain ⟨q, q', hq⟩ := List.append_of_mem hq
    cases a with
    | dead => exact absurd rfl had
    | idle => exact drain q h hx ht hq
    | busy j =>
      obtain ⟨rj, hj⟩ := inv.busy t j ht
      obtain ⟨σ', y, st, h1, h2, _, h4⟩ := finish_busy (K := K) (checked := checked) (cfg := cfg) hx ht hj
      obtain ⟨σ'', r', y', st', h'⟩ := drain q (steps_trans h st) h1 h2 (h4.trans hq)
      exact ⟨σ'', r', y', steps_trans st st', h'⟩

/-- **C83 is violated**: although a hash is made with the user's id, verifying does not look at it: a hash made for one
user lets another user in with the same password. -/
theorem C83_violated_user_not_checked (p : Params) (hv : ∀ q, K.valid q = true) (pw : Bytes) :
    ∃ σ s, Reach K checked (.params p) 1 σ ∧ σ.calls 0 = some ⟨⟨1, pw, none⟩, .answered (.hashed s)⟩ ∧
      σ.calls 1 = some ⟨⟨2, pw, some s⟩, .answered .verified⟩ := by
  have al : ∀ σ : Pool, σ.threads = [.idle] → σ.Alive := fun σ h => ⟨.idle, by simp [h], by simp⟩
  have e1 : Steps K checked (.params p) (Pool.new 1) _ := .step .refl (.submit (i := 0) ⟨1, pw, none⟩ rfl (al _ rfl))
  have e2 := Steps.step e1 (.take (t := 0) (i := 0) rfl rfl rfl)
  have e3 := Steps.step e2 (.init (t := 0) (i := 0) (r := ⟨1, pw, none⟩) rfl rfl rfl rfl .params)
  have e4 := Steps.step e3 (.hash (t := 0) (i := 0) (r := ⟨1, pw, none⟩) (x := some p) [] rfl rfl rfl rfl)
  let s := K.render ⟨p.forUser 1, [], K.argon (p.forUser 1) [] pw⟩
  have e5 := Steps.step e4 (.submit (i := 1) ⟨2, pw, some s⟩ rfl (al _ rfl))
  have e6 := Steps.step e5 (.take (t := 0) (i := 1) rfl rfl rfl)
  have e7 := Steps.step e6 (.verify (t := 0) (i := 1) (r := ⟨2, pw, some s⟩) rfl rfl rfl)
  refine ⟨_, s, e7, ?_, ?_⟩
  · simp [Pool.setCall, Pool.setThread, hashAnswer, hv, s]
  · have := (verifyAnswer_spec K ⟨2, pw, some s⟩ s).1 ⟨_, K.parse_render _, hv _, rfl⟩
    simp [Pool.setCall, this]

/-- A run of the calibration that is measured as taking no time makes it panic. -/
theorem exPanic (minimum : Nat) (hm : 0 < minimum) (v : Nat → Bool) (hv : v 2 = true) :
    CalRun minimum checked v Cal.start [(2, some 0)] .panic :=
  .more (c' := ⟨3, 2, 0⟩) rfl hv hm (by simp [Cal.advance, Cal.start]) (.costPanic rfl)

/-- **C83 is violated**: a calibration measured by too coarse a clock panics and takes the thread with it; with one
hasher no password can be verified any more, the right ones included, and nothing brings the thread back. -/
theorem C83_violated_panic (p : Params) (minimum : Nat) (hm : 0 < minimum) (hv : ∀ q, K.valid q = true) (pw saved : Bytes) :
    ∃ σ, Reach K checked (.timed p minimum) 1 σ ∧
      σ.calls 0 = some ⟨⟨1, pw, none⟩, .answered .internalCommunication⟩ ∧
      σ.calls 1 = some ⟨⟨1, pw, some saved⟩, .answered .internalCommunication⟩ ∧
      ∀ σ', Steps K checked (.timed p minimum) σ σ' → ¬ σ'.Alive := by
  have e1 : Steps K checked (.timed p minimum) (Pool.new 1) _ :=
    .step .refl (.submit (i := 0) ⟨1, pw, none⟩ rfl ⟨.idle, by simp [Pool.new], by simp⟩)
  have e2 := Steps.step e1 (.take (t := 0) (i := 0) rfl rfl rfl)
  have e3 := Steps.step e2 (.die (t := 0) (i := 0) (r := ⟨1, pw, none⟩) rfl rfl rfl rfl
    (.panic (exPanic minimum hm _ (hv _))))
  have e4 := Steps.step e3 (.refuse (i := 1) ⟨1, pw, some saved⟩ rfl (by
    rintro ⟨t, ht, hn⟩; simp [Pool.setCall, Pool.setThread, Pool.new] at ht; exact hn ht))
  refine ⟨_, e4, rfl, rfl, ?_⟩
  intro σ' st
  have hd : σ'.threads = [.dead] := by
    induction st with
    | refl => rfl
    | @step σ1 σ2 _ s ih =>
      have key : ∀ (t : Nat) (x : Thread), σ1.threads[t]? = some x → x = .dead := by
        intro t x hx; rw [ih] at hx
        cases t with
        | zero => simpa using hx.symm
        | succ t => simp at hx
      cases s with
      | submit => exact ih
      | refuse => exact ih
      | take _ ht _ => cases key _ _ ht
      | verify ht _ _ => cases key _ _ ht
      | init ht _ _ _ _ => cases key _ _ ht
      | die ht _ _ _ _ => cases key _ _ ht
      | hash _ ht _ _ _ => cases key _ _ ht
  rintro ⟨t, ht, hn⟩
  rw [hd] at ht; simp at ht; exact hn ht

/-- **C83 is violated**: a call that waits in the channel when the last thread dies is never answered: it waits for
ever (`flume` keeps what is in a channel nobody receives from). -/
theorem C83_violated_waits_forever (p : Params) (minimum : Nat) (hm : 0 < minimum) (hv : ∀ q, K.valid q = true)
    (pw saved : Bytes) :
    ∃ σ, Reach K checked (.timed p minimum) 1 σ ∧ ∀ σ', Steps K checked (.timed p minimum) σ σ' →
      σ'.calls 1 = some ⟨⟨2, pw, some saved⟩, .queued⟩ := by
  have e1 : Steps K checked (.timed p minimum) (Pool.new 1) _ :=
    .step .refl (.submit (i := 0) ⟨1, pw, none⟩ rfl ⟨.idle, by simp [Pool.new], by simp⟩)
  have e2 := Steps.step e1 (.take (t := 0) (i := 0) rfl rfl rfl)
  have e3 := Steps.step e2 (.submit (i := 1) ⟨2, pw, some saved⟩ rfl ⟨.busy 0, by
    simp [Pool.setCall, Pool.setThread, Pool.new], by simp⟩)
  have e4 := Steps.step e3 (.die (t := 0) (i := 0) (r := ⟨1, pw, none⟩) rfl rfl rfl rfl
    (.panic (exPanic minimum hm _ (hv _))))
  refine ⟨_, e4, ?_⟩
  intro σ' st
  have hd : σ'.threads = [.dead] ∧ σ'.calls 1 = some ⟨⟨2, pw, some saved⟩, .queued⟩ := by
    induction st with
    | refl => exact ⟨rfl, rfl⟩
    | @step σ1 σ2 _ s ih =>
      have key : ∀ (t : Nat) (x : Thread), σ1.threads[t]? = some x → x = .dead := by
        intro t x hx; rw [ih.1] at hx
        cases t with
        | zero => simpa using hx.symm
        | succ t => simp at hx
      cases s with
      | @submit i r hc ha =>
        refine ⟨ih.1, ?_⟩
        have : 1 ≠ i := by rintro rfl; rw [ih.2] at hc; cases hc
        simp [Pool.setCall, this, ih.2]
      | @refuse i r hc ha =>
        refine ⟨ih.1, ?_⟩
        have : 1 ≠ i := by rintro rfl; rw [ih.2] at hc; cases hc
        simp [Pool.setCall, this, ih.2]
      | take _ ht _ => cases key _ _ ht
      | verify ht _ _ => cases key _ _ ht
      | init ht _ _ _ _ => cases key _ _ ht
      | die ht _ _ _ _ => cases key _ _ ht
      | hash _ ht _ _ _ => cases key _ _ ht
  exact hd.2

/-! ## The hypotheses can be met -/

/-- A number, written down so that it can be read back. -/
def exEncN : Nat → Bytes → Bytes
  | 0, k => 0 :: k
  | n + 1, k => 1 :: exEncN n k

def exDecN : Bytes → Option (Nat × Bytes)
  | [] => none
  | b :: k => if b = 0 then some (0, k) else (exDecN k).map fun p => (p.1 + 1, p.2)

theorem exDecN_enc (n : Nat) (k : Bytes) : exDecN (exEncN n k) = some (n, k) := by
  induction n with
  | zero => simp [exEncN, exDecN]
  | succ n ih => simp [exEncN, exDecN, ih]

/-- Bytes, written down so that they can be read back. -/
def exEncB : Bytes → Bytes → Bytes
  | [], k => 0 :: k
  | b :: bs, k => 1 :: b :: exEncB bs k

def exDecB : Bytes → Option (Bytes × Bytes)
  | [] => none
  | [x] => if x = 0 then some ([], []) else none
  | x :: y :: k => if x = 0 then some ([], y :: k) else (exDecB k).map fun p => (y :: p.1, p.2)

theorem exDecB_enc (b k : Bytes) : exDecB (exEncB b k) = some (b, k) := by
  induction b with
  | nil => cases k <;> simp [exEncB, exDecB]
  | cons x b ih => simp [exEncB, exDecB, ih]

def exRender (h : PHash) : Bytes :=
  exEncN h.params.algorithm (exEncN h.params.m (exEncN h.params.t (exEncN h.params.p (exEncB h.params.data
    (exEncB h.salt (exEncB h.out []))))))

def exParse (b : Bytes) : Option PHash :=
  (exDecN b).bind fun a => (exDecN a.2).bind fun m => (exDecN m.2).bind fun t => (exDecN t.2).bind fun p =>
    (exDecB p.2).bind fun d => (exDecB d.2).bind fun s => (exDecB s.2).bind fun o =>
      some ⟨⟨a.1, m.1, t.1, p.1, d.1⟩, s.1, o.1⟩

/-- A made-up Argon2 without collisions. -/
def exCrypto : Crypto where
  argon := fun _ _ pw => pw
  valid := fun _ => true
  render := exRender
  parse := exParse
  parse_render := fun h => by simp [exRender, exParse, exDecN_enc, exDecB_enc]

/-- A pool of two threads with timed parameters in which a password was hashed and verified. -/
example : ∃ σ s, Reach exCrypto true (.timed ⟨2, 19456, 0, 4, []⟩ 1000000000) 2 σ ∧
    σ.calls 0 = some ⟨⟨7, [104, 105], none⟩, .answered (.hashed s)⟩ ∧
    σ.calls 1 = some ⟨⟨7, [104, 105], some s⟩, .answered .verified⟩ ∧ σ.Alive ∧ σ.template ≠ none := by
  have al : ∀ σ : Pool, σ.threads[1]? = some .idle → σ.Alive := fun σ h => ⟨.idle, List.mem_iff_getElem?.mpr ⟨1, h⟩, by simp⟩
  have e1 : Steps exCrypto true (.timed ⟨2, 19456, 0, 4, []⟩ 1000000000) (Pool.new 2) _ :=
    .step .refl (.submit (i := 0) ⟨7, [104, 105], none⟩ rfl (al _ rfl))
  have e2 := Steps.step e1 (.take (t := 0) (i := 0) rfl rfl rfl)
  have e3 := Steps.step e2 (.init (t := 0) (i := 0) (r := ⟨7, [104, 105], none⟩) rfl rfl rfl rfl (.ok (exCal _ rfl rfl)))
  have e4 := Steps.step e3 (.hash (t := 0) (i := 0) (r := ⟨7, [104, 105], none⟩) [9] rfl rfl rfl rfl)
  let p : Params := ⟨2, 19456, 34, 4, toBE 8 7⟩
  let s := exCrypto.render ⟨p, [9], exCrypto.argon p [9] [104, 105]⟩
  have e5 := Steps.step e4 (.submit (i := 1) ⟨7, [104, 105], some s⟩ rfl (al _ rfl))
  have e6 := Steps.step e5 (.take (t := 0) (i := 1) rfl rfl rfl)
  have e7 := Steps.step e6 (.verify (t := 0) (i := 1) (r := ⟨7, [104, 105], some s⟩) rfl rfl rfl)
  refine ⟨_, s, e7, ?_, ?_, al _ rfl, by simp [Pool.setCall, Pool.setThread]⟩
  · simp [Pool.setCall, Pool.setThread, hashAnswer, s, p, Params.forUser, exCrypto]
  · have := (verifyAnswer_spec exCrypto ⟨7, [104, 105], some s⟩ s).1 ⟨_, exCrypto.parse_render _, rfl, rfl⟩
    simp [Pool.setCall, this]

end Bonsai.Argon
