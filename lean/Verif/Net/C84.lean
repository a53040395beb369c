import Verif.Net.Certs

/-!
# C84 — certificates: what is installed is stored and presented

A call that runs alone is settled completely; what every interleaving of calls and restarts keeps is proved by
invariants; the renewal loop is settled for every function that says how long a certificate is good for.
-/
set_option linter.unusedVariables false
set_option linter.unusedSimpArgs false

namespace Bonsai.Net

/-! ## A call that runs while no other does -/

/-- **C84 (install)**: installing a certificate with a usable key alone succeeds; the certificate is stored, TLS
connections are given it, and no certificate is pinned any more. -/
theorem C84_install (w : TW) (c : TCert) (h : c.ecdsa = true) :
    TTask.run 8 w (TTask.new .install c) =
      ({ w with stored := some c, cache := some c, pinned := none }, ⟨.install, c, .ok⟩) := by
  obtain ⟨st, ca, pi, ts⟩ := w
  cases pi <;> simp [TTask.run, TTask.new, TTask.next, TTask.installed, h]

/-- **C84 (self-signed)**: so does a self-signed certificate, with its leaf in the pinned file, when there is none or
`overwrite` is given. -/
theorem C84_self_signed (w : TW) (c : TCert) (o : Bool) (h : c.ecdsa = true) (hw : o = true ∨ w.stored = none) :
    TTask.run 8 w (TTask.new (.selfSigned o) c) =
      ({ w with stored := some c, cache := some c, pinned := some c.leaf }, ⟨.selfSigned o, c, .ok⟩) := by
  obtain ⟨st, ca, pi, ts⟩ := w
  rcases hw with rfl | hw
  · cases pi <;> cases st <;> simp [TTask.run, TTask.new, TTask.next, TTask.installed, TKind.overwrite, h]
  · simp only at hw
    subst hw
    cases pi <;> simp [TTask.run, TTask.new, TTask.next, TTask.installed, TKind.overwrite, h]

/-- **C84 (self-signed, refused)**: without `overwrite` a certificate that is there stays, and the call fails. -/
theorem C84_self_signed_refused (w : TW) (c : TCert) (h : w.stored.isSome = true) :
    TTask.run 8 w (TTask.new (.selfSigned false) c) = (w, ⟨.selfSigned false, c, .err⟩) := by
  simp [TTask.run, TTask.new, TTask.next, TKind.overwrite, h]

/-- **C84 (restart)**: when a listener starts, TLS connections are given the stored certificate; there being none
changes nothing. -/
theorem C84_refresh (w : TW) (d : TCert) (h : ∀ c, w.stored = some c → c.ecdsa = true) :
    (TTask.run 8 w (TTask.new .refresh d)).1 =
      { w with cache := match w.stored with | none => w.cache | some c => some c } := by
  obtain ⟨st, ca, pi, ts⟩ := w
  cases st with
  | none => simp [TTask.run, TTask.new, TTask.next]
  | some c => simp [TTask.run, TTask.new, TTask.next, h c rfl]

/-- **C84 (a failed call)**: whatever call runs alone and fails, TLS connections keep the certificate they had and the
pinned file stays.  The stored document is another matter: `C84_violated_failed_install`. -/
theorem C84_failed_call_partial (w : TW) (k : TKind) (c : TCert)
    (h : (TTask.run 8 w (TTask.new k c)).2.stage = .err) :
    (TTask.run 8 w (TTask.new k c)).1.cache = w.cache ∧ (TTask.run 8 w (TTask.new k c)).1.pinned = w.pinned := by
  obtain ⟨st, ca, pi, ts⟩ := w
  obtain ⟨ci, cl, ce⟩ := c
  rcases k with _ | o | _
  · cases ce <;> cases pi <;> simp_all [TTask.run, TTask.new, TTask.next, TTask.installed]
  · cases o <;> cases ce <;> cases pi <;> cases st <;>
      simp_all [TTask.run, TTask.new, TTask.next, TTask.installed, TKind.overwrite]
  · cases st with
    | none => simp_all [TTask.run, TTask.new, TTask.next]
    | some d =>
      obtain ⟨di, dl, de⟩ := d
      cases de <;> simp_all [TTask.run, TTask.new, TTask.next]

/-! ## Any calls at once, and restarts -/

/-- The certificate is the one there was, or one that a call brought. -/
def Brought (w₀ : TW) (l : List (TKind × TCert)) (c : TCert) : Prop :=
  w₀.stored = some c ∨ ∃ k, (k, c) ∈ l ∧ k ≠ .refresh

/-- What a call that is running knows. -/
structure TTask.Fits (w₀ : TW) (l : List (TKind × TCert)) (t : TTask) : Prop where
  began : (t.kind, t.cert) ∈ l
  holds : ∀ c, t.stage = .set c → Brought w₀ l c
  writes : t.stage = .write → t.kind ≠ .refresh
  pins : t.stage = .pin → ∃ o, t.kind = .selfSigned o
  refreshes : t.kind = .refresh → t.stage = .read ∨ (∃ c, t.stage = .set c) ∨ t.stage = .ok ∨ t.stage = .err

/-- The invariant. -/
structure CertInv (w₀ : TW) (l : List (TKind × TCert)) (w : TW) : Prop where
  stored : ∀ c, w.stored = some c → Brought w₀ l c
  cache : ∀ c, w.cache = some c → w₀.cache = some c ∨ (c.ecdsa = true ∧ Brought w₀ l c)
  pinned : ∀ x, w.pinned = some x → w₀.pinned = some x ∨ ∃ o c, (TKind.selfSigned o, c) ∈ l ∧ c.leaf = x
  tasks : ∀ t ∈ w.tasks, t.Fits w₀ l
  kept : w₀.stored.isSome = true → w.stored.isSome = true

theorem Brought.mono {w₀ : TW} {l m : List (TKind × TCert)} {c : TCert} (h : Brought w₀ l c) :
    Brought w₀ (l ++ m) c := by
  rcases h with h | ⟨k, h, hk⟩
  · exact Or.inl h
  · exact Or.inr ⟨k, List.mem_append_left _ h, hk⟩

theorem TTask.Fits.mono {w₀ : TW} {l m : List (TKind × TCert)} {t : TTask} (h : t.Fits w₀ l) : t.Fits w₀ (l ++ m) :=
  ⟨List.mem_append_left _ h.began, fun c hc => (h.holds c hc).mono, h.writes, h.pins, h.refreshes⟩

theorem CertInv.mono {w₀ w : TW} {l m : List (TKind × TCert)} (h : CertInv w₀ l w) : CertInv w₀ (l ++ m) w :=
  ⟨fun c hc => (h.stored c hc).mono,
   fun c hc => (h.cache c hc).imp id (fun x => ⟨x.1, x.2.mono⟩),
   fun x hx => (h.pinned x hx).imp id (fun ⟨o, c, a, b⟩ => ⟨o, c, List.mem_append_left _ a, b⟩),
   fun t ht => (h.tasks t ht).mono, h.kept⟩

theorem TTask.Fits.new {w₀ : TW} {l : List (TKind × TCert)} (k : TKind) (c : TCert) :
    (TTask.new k c).Fits w₀ (l ++ [(k, c)]) := by
  constructor <;> cases k <;> simp [TTask.new]

/-- A call at one of its ends, or where it neither writes nor pins, fits. -/
theorem CertInv.next {w₀ w : TW} {l : List (TKind × TCert)} {t : TTask} (h : CertInv w₀ l w) (ht : t.Fits w₀ l) :
    (t.next w).2.Fits w₀ l ∧ (∀ c, (t.next w).1.stored = some c → Brought w₀ l c) ∧
    (∀ c, (t.next w).1.cache = some c → w₀.cache = some c ∨ (c.ecdsa = true ∧ Brought w₀ l c)) ∧
    (∀ x, (t.next w).1.pinned = some x → w₀.pinned = some x ∨ ∃ o c, (TKind.selfSigned o, c) ∈ l ∧ c.leaf = x) ∧
    (w₀.stored.isSome = true → (t.next w).1.stored.isSome = true) := by
  obtain ⟨hs, hc, hp, _, hk⟩ := h
  obtain ⟨k, c, s⟩ := t
  obtain ⟨b, ho, hw, hpi, hr⟩ := ht
  cases s with
  | check =>
    refine ⟨?_, hs, hc, hp, hk⟩
    simp only [TTask.next]
    split <;> (constructor <;> simp_all) <;> (intro he; simp_all)
  | write =>
    simp only at hw
    have hb : Brought w₀ l c := Or.inr ⟨k, b, hw trivial⟩
    refine ⟨?_, ?_, hc, hp, ?_⟩
    · constructor <;> simp_all [TTask.next]
    · intro d hd; simp only [TTask.next, Option.some.injEq] at hd; subst hd; exact hb
    · intro _; simp [TTask.next]
  | read =>
    refine ⟨?_, hs, hc, hp, hk⟩
    simp only [TTask.next]
    split <;> (constructor <;> simp_all)
  | set d =>
    have hd : Brought w₀ l d := ho d rfl
    simp only [TTask.next]
    by_cases he : d.ecdsa = true
    · simp only [he, if_true]
      refine ⟨?_, hs, ?_, hp, hk⟩
      · by_cases hx : k = .refresh
        · subst hx; constructor <;> simp_all
        · constructor <;> simp_all
      · intro e hh; simp only [Option.some.injEq] at hh; subst hh; exact Or.inr ⟨he, hd⟩
    · simp only [he]
      refine ⟨?_, hs, hc, hp, hk⟩
      constructor <;> simp_all
  | lookup =>
    refine ⟨?_, hs, hc, hp, hk⟩
    cases k <;> simp only [TTask.next, TTask.installed] <;> split <;> (constructor <;> simp_all)
  | removeFile =>
    cases k <;> simp only [TTask.next, TTask.installed] <;> split <;>
      refine ⟨?_, hs, hc, ?_, hk⟩ <;> first | exact hp | (simp; done) | (constructor <;> simp_all)
  | pin =>
    obtain ⟨o, hk'⟩ := hpi rfl
    refine ⟨?_, hs, hc, ?_, hk⟩
    · constructor <;> simp_all [TTask.next]
    · intro x hx
      simp only [TTask.next, Option.some.injEq] at hx
      exact Or.inr ⟨o, c, by simpa [← hk'] using b, hx⟩
  | ok => exact ⟨by constructor <;> simp_all [TTask.next], hs, hc, hp, hk⟩
  | err => exact ⟨by constructor <;> simp_all [TTask.next], hs, hc, hp, hk⟩

theorem certInv_step {w₀ w w' : TW} {l : List (TKind × TCert)} {o : Option (TKind × TCert)} (h : CertInv w₀ l w)
    (hs : TStep w o w') : CertInv w₀ (l ++ o.toList) w' := by
  cases hs with
  | start k c =>
    have hm := h.mono (m := [(k, c)])
    refine ⟨hm.stored, hm.cache, hm.pinned, ?_, hm.kept⟩
    intro t ht
    rcases List.mem_append.1 ht with ht | ht
    · exact hm.tasks t ht
    · rw [List.mem_singleton.1 ht]; exact TTask.Fits.new k c
  | @go i t ht =>
    have hf := h.tasks t (List.mem_of_getElem? ht)
    obtain ⟨a, b, c, d, e⟩ := h.next hf
    simp only [Option.toList, List.append_nil]
    refine ⟨b, c, d, ?_, e⟩
    intro u hu
    rcases List.mem_or_eq_of_mem_set hu with hu | hu
    · exact h.tasks u hu
    · rw [hu]; exact a
  | crash =>
    simp only [Option.toList, List.append_nil]
    exact ⟨h.stored, by simp, h.pinned, by simp, h.kept⟩

theorem certInv_steps {w₀ w : TW} {l : List (TKind × TCert)} (h₀ : w₀.tasks = []) (h : TSteps w₀ l w) :
    CertInv w₀ l w := by
  induction h with
  | refl => exact ⟨fun c hc => Or.inl hc, fun c hc => Or.inl hc, fun x hx => Or.inl hx, by simp [h₀], id⟩
  | step _ hs ih => exact certInv_step ih hs

/-- **C84 (what is presented)**: whatever calls run at once and whenever the process is restarted, a TLS connection is
given the certificate it would have been given at the beginning, or one that was stored then or brought by an install,
with a usable key. -/
theorem C84_presented {w₀ w : TW} {l : List (TKind × TCert)} {c : TCert} (h₀ : w₀.tasks = []) (h : TSteps w₀ l w)
    (hc : w.cache = some c) :
    w₀.cache = some c ∨ (c.ecdsa = true ∧ (w₀.stored = some c ∨ ∃ k, (k, c) ∈ l ∧ k ≠ .refresh)) :=
  (certInv_steps h₀ h).cache c hc

/-- **C84 (what is stored)**: the document holds a certificate some install brought, or the one it held; once there is
one there always is. -/
theorem C84_stored {w₀ w : TW} {l : List (TKind × TCert)} (h₀ : w₀.tasks = []) (h : TSteps w₀ l w) :
    (∀ c, w.stored = some c → w₀.stored = some c ∨ ∃ k, (k, c) ∈ l ∧ k ≠ .refresh) ∧
    (w₀.stored.isSome = true → w.stored.isSome = true) :=
  ⟨(certInv_steps h₀ h).stored, (certInv_steps h₀ h).kept⟩

/-- **C84 (the pinned file)**: it holds the leaf of a self-signed certificate that was installed, or what it held. -/
theorem C84_pinned {w₀ w : TW} {l : List (TKind × TCert)} {x : Nat} (h₀ : w₀.tasks = []) (h : TSteps w₀ l w)
    (hp : w.pinned = some x) : w₀.pinned = some x ∨ ∃ o c, (TKind.selfSigned o, c) ∈ l ∧ c.leaf = x :=
  (certInv_steps h₀ h).pinned x hp

/-- While nothing but self-signed calls without `overwrite` and listeners begin, the calls are harmless. -/
theorem harmless_steps {w₀ w : TW} {l : List (TKind × TCert)} {c : TCert} (h₀ : w₀.tasks = []) (hc : w₀.stored = some c)
    (h : TSteps w₀ l w) (hl : ∀ p ∈ l, p.1 = .selfSigned false ∨ p.1 = .refresh) :
    w.stored = some c ∧ w.pinned = w₀.pinned ∧
    (w.cache = w₀.cache ∨ w.cache = none ∨ (w.cache = some c ∧ c.ecdsa = true)) ∧
    ∀ t ∈ w.tasks, (t.kind = .selfSigned false ∧ (t.stage = .check ∨ t.stage = .err)) ∨
      (t.kind = .refresh ∧ (t.stage = .read ∨ t.stage = .set c ∨ t.stage = .ok ∨ t.stage = .err)) := by
  induction h with
  | refl => exact ⟨hc, rfl, Or.inl rfl, by simp [h₀]⟩
  | @step w' w'' l o _ hs ih =>
    obtain ⟨a, b, d, e⟩ := ih (fun p hp => hl p (List.mem_append_left _ hp))
    cases hs with
    | start k c' =>
      refine ⟨a, b, d, ?_⟩
      intro t ht
      rcases List.mem_append.1 ht with ht | ht
      · exact e t ht
      · rw [List.mem_singleton.1 ht]
        rcases hl (k, c') (by simp) with h | h <;> simp only at h <;> subst h <;> simp [TTask.new]
    | @go i t ht =>
      have hf := e t (List.mem_of_getElem? ht)
      obtain ⟨k, ct, s⟩ := t
      have key : (TTask.next w' ⟨k, ct, s⟩).1.stored = some c ∧ (TTask.next w' ⟨k, ct, s⟩).1.pinned = w₀.pinned ∧
          ((TTask.next w' ⟨k, ct, s⟩).1.cache = w₀.cache ∨ (TTask.next w' ⟨k, ct, s⟩).1.cache = none ∨
            ((TTask.next w' ⟨k, ct, s⟩).1.cache = some c ∧ c.ecdsa = true)) ∧
          (((TTask.next w' ⟨k, ct, s⟩).2.kind = .selfSigned false ∧
            ((TTask.next w' ⟨k, ct, s⟩).2.stage = .check ∨ (TTask.next w' ⟨k, ct, s⟩).2.stage = .err)) ∨
          ((TTask.next w' ⟨k, ct, s⟩).2.kind = .refresh ∧
            ((TTask.next w' ⟨k, ct, s⟩).2.stage = .read ∨ (TTask.next w' ⟨k, ct, s⟩).2.stage = .set c ∨
             (TTask.next w' ⟨k, ct, s⟩).2.stage = .ok ∨ (TTask.next w' ⟨k, ct, s⟩).2.stage = .err))) := by
        rcases hf with ⟨hk, hs⟩ | ⟨hk, hs⟩
        · simp only at hk hs
          subst hk
          rcases hs with rfl | rfl <;> simp [TTask.next, a, b, d, TKind.overwrite]
        · simp only at hk hs
          subst hk
          rcases hs with rfl | rfl | rfl | rfl
          · simp [TTask.next, a, b, d]
          · by_cases he : c.ecdsa = true
            · simp [TTask.next, a, b, d, he]
            · have d' : w'.cache = w₀.cache ∨ w'.cache = none := by
                rcases d with d | d | d
                · exact Or.inl d
                · exact Or.inr d
                · exact absurd d.2 he
              simp [TTask.next, a, b, d', he]
          · simp [TTask.next, a, b, d]
          · simp [TTask.next, a, b, d]
      refine ⟨key.1, key.2.1, key.2.2.1, ?_⟩
      intro u hu
      rcases List.mem_or_eq_of_mem_set hu with hu | hu
      · exact e u hu
      · rw [hu]; exact key.2.2.2
    | crash => exact ⟨a, b, Or.inr (Or.inl rfl), by simp⟩

/-- **C84 (no overwriting)**: any number of self-signed installs without `overwrite`, and of listeners starting, at once
and with restarts between, leave a stored certificate and the pinned file as they are, and no such install succeeds. -/
theorem C84_no_overwrite {w₀ w : TW} {l : List (TKind × TCert)} {c : TCert} (h₀ : w₀.tasks = [])
    (hc : w₀.stored = some c) (h : TSteps w₀ l w) (hl : ∀ p ∈ l, p.1 = .selfSigned false ∨ p.1 = .refresh) :
    w.stored = some c ∧ w.pinned = w₀.pinned ∧
    ∀ t ∈ w.tasks, t.kind = .selfSigned false → t.stage ≠ .ok := by
  obtain ⟨a, b, _, e⟩ := harmless_steps h₀ hc h hl
  refine ⟨a, b, ?_⟩
  intro t ht hk hs
  rcases e t ht with ⟨_, h | h⟩ | ⟨h, _⟩
  · rw [hs] at h; cases h
  · rw [hs] at h; cases h
  · rw [hk] at h; cases h

/-- A call whose steps find the world as in `ws`, whatever others do between. -/
def TTask.through : List TW → TTask → TTask
  | [], t => t
  | w :: ws, t => TTask.through ws (t.next w).2

/-- How many steps a call can still take. -/
def TStage.rank : TStage → Nat
  | .check => 7
  | .write => 6
  | .read => 5
  | .set _ => 4
  | .lookup => 3
  | .removeFile => 2
  | .pin => 1
  | .ok => 0
  | .err => 0

theorem TTask.next_rank (w : TW) (t : TTask) : (t.next w).2.stage.rank ≤ t.stage.rank - 1 := by
  obtain ⟨k, c, s⟩ := t
  cases s with
  | check => simp only [TTask.next]; split <;> simp [TStage.rank]
  | write => simp [TTask.next, TStage.rank]
  | read => simp only [TTask.next]; split <;> simp [TStage.rank]
  | set d => simp only [TTask.next]; split <;> (try split) <;> simp [TStage.rank]
  | lookup => simp only [TTask.next]; split <;> cases k <;> simp [TStage.rank, TTask.installed]
  | removeFile => simp only [TTask.next]; split <;> cases k <;> simp [TStage.rank, TTask.installed]
  | pin => simp [TTask.next, TStage.rank]
  | ok => simp [TTask.next, TStage.rank]
  | err => simp [TTask.next, TStage.rank]

theorem TTask.through_rank (ws : List TW) : ∀ t : TTask, (TTask.through ws t).stage.rank ≤ t.stage.rank - ws.length := by
  induction ws with
  | nil => intro t; simp [TTask.through]
  | cons w ws ih =>
    intro t
    have h1 := ih (t.next w).2
    have h2 := t.next_rank w
    simp only [TTask.through, List.length_cons]
    omega

/-- **C84 (every call ends)**: whatever the other calls do, a call has returned after at most seven of its steps. -/
theorem C84_calls_end (k : TKind) (c : TCert) (ws : List TW) (h : 7 ≤ ws.length) :
    (TTask.through ws (TTask.new k c)).stage = .ok ∨ (TTask.through ws (TTask.new k c)).stage = .err := by
  have h1 := TTask.through_rank ws (TTask.new k c)
  have h2 : (TTask.new k c).stage.rank ≤ 7 := by cases k <;> simp [TTask.new, TStage.rank]
  have h3 : (TTask.through ws (TTask.new k c)).stage.rank = 0 := by omega
  generalize (TTask.through ws (TTask.new k c)).stage = s at h3
  cases s <;> simp_all [TStage.rank]

/-! ## The handshake -/

/-- **C84 (handshake)**: a client that does not ask for the ACME protocol is given the certificate in memory, whatever
name it asks for; one that does is given the challenge certificate of an order for the name it asks for and never the
server's own. -/
theorem C84_handshake (acme : List UInt8) (ch : List UInt8 → Option TCert) (cache : Option TCert)
    (alpn : Option (List (List UInt8))) (name : Option (List UInt8)) :
    ((∀ l, alpn = some l → acme ∉ l) → resolveCert acme ch cache alpn name = cache) ∧
    (∀ l, alpn = some l → acme ∈ l →
      resolveCert acme ch cache alpn name = name.bind ch) := by
  constructor
  · intro h
    cases alpn with
    | none => rfl
    | some l =>
      have : l.any (fun p => p == acme) = false := by
        simp only [List.any_eq_false, beq_iff_eq]
        intro x hx he
        exact h l rfl (he ▸ hx)
      simp [resolveCert, this]
  · intro l hl hm
    subst hl
    have : l.any (fun p => p == acme) = true := by
      simp only [List.any_eq_true, beq_iff_eq]
      exact ⟨acme, hm, rfl⟩
    simp only [resolveCert, this, if_true]
    cases name <;> rfl

/-! ## Renewal -/

/-- **C84 (not too early)**: an order begins only when the certificate the loop took is within 14 days of its renewal. -/
theorem C84_not_early {untilR : Option TCert → Nat → Nat} {key : Nat → Option TCert} {a b : ALoop} {o : Option Nat}
    {t : Nat} (h : AStep untilR key a o b) (ho : o = some t) :
    ∃ k, a = .waiting k t ∧ untilR k t ≤ 14 * 86400 := by
  cases h with
  | order h => cases ho; exact ⟨_, rfl, h⟩
  | wait h => cases ho
  | success h => cases ho
  | failure => cases ho

/-- While the loop waits with a certificate, it looks every hour. -/
theorem waits {untilR : Option TCert → Nat → Nat} {key : Nat → Option TCert} {k : Option TCert} (n : Nat) :
    ∀ t, (∀ i, i < n → untilR k (t + i * 3600) > 14 * 86400) →
      ASteps untilR key (.waiting k t) [] (.waiting k (t + n * 3600)) := by
  induction n with
  | zero => intro t _; rw [Nat.zero_mul]; exact .refl
  | succ n ih =>
    intro t h
    have h1 := ih t (fun i hi => h i (Nat.lt_succ_of_lt hi))
    have h2 := ASteps.step h1 (AStep.wait (h n (Nat.lt_succ_self n)))
    have : t + n * 3600 + renewPoll = t + (n + 1) * 3600 := by simp only [renewPoll]; omega
    rw [this] at h2
    exact h2

/-- **C84 (in time)**: for a certificate whose time until renewal only decreases and that comes within 14 days of it at
time `d`, the order begins at or after `d`, less than an hour later (or at once if it was so from the beginning). -/
theorem C84_in_time (untilR : Option TCert → Nat → Nat) (key : Nat → Option TCert) (k : Option TCert) (t d : Nat)
    (hd : ∀ s, untilR k s ≤ 14 * 86400 ↔ d ≤ s) :
    ∃ s, ASteps untilR key (.waiting k t) [s] (.ordering k s) ∧ t ≤ s ∧ d ≤ s ∧ (s < d + 3600 ∨ s = t) := by
  have go : ∀ n s, ASteps untilR key (.waiting k t) [] (.waiting k s) → t ≤ s → (s < d + 3600 ∨ s = t) → d ≤ s + n →
      ∃ s, ASteps untilR key (.waiting k t) [s] (.ordering k s) ∧ t ≤ s ∧ d ≤ s ∧ (s < d + 3600 ∨ s = t) := by
    intro n
    induction n using Nat.strongRecOn with
    | ind n ih =>
      intro s h1 h2 h3 h4
      by_cases hs : d ≤ s
      · exact ⟨s, ASteps.step h1 (AStep.order ((hd s).2 hs)), h2, hs, h3⟩
      · have hgt : untilR k s > renewBefore := by
          have := mt (hd s).1 hs
          simp only [renewBefore]
          omega
        have h5 := ASteps.step h1 (AStep.wait hgt)
        have hp : renewPoll = 3600 := rfl
        by_cases hn : n ≤ 3600
        · refine ih 0 (by omega) (s + renewPoll) h5 (by omega) (Or.inl (by omega)) (by omega)
        · exact ih (n - 3600) (by omega) (s + renewPoll) h5 (by omega) (Or.inl (by omega)) (by omega)
  exact go d t .refl (Nat.le_refl _) (Or.inr rfl) (by omega)

/-- The loop does nothing else: from a waiting loop, the next order is that one. -/
theorem C84_only_then {untilR : Option TCert → Nat → Nat} {key : Nat → Option TCert} {k : Option TCert} {t d s : Nat}
    {b : ALoop} (hd : ∀ s, untilR k s ≤ 14 * 86400 ↔ d ≤ s) (h : ASteps untilR key (.waiting k t) [s] b) :
    d ≤ s ∧ t ≤ s ∧ (s < d + 3600 ∨ s = t) := by
  have inv : ∀ a l, ASteps untilR key (.waiting k t) l a →
      (l = [] → ∃ s, a = .waiting k s ∧ t ≤ s ∧ (s < d + 3600 ∨ s = t)) ∧
      (∀ x r, l = x :: r → d ≤ x ∧ t ≤ x ∧ (x < d + 3600 ∨ x = t)) := by
    intro a l h
    induction h with
    | refl => exact ⟨fun _ => ⟨t, rfl, Nat.le_refl _, Or.inr rfl⟩, by simp⟩
    | @step b c l o _ hs ih =>
      obtain ⟨i1, i2⟩ := ih
      cases hs with
      | @wait _ s' hw =>
        simp only [Option.toList, List.append_nil]
        refine ⟨fun hl => ?_, i2⟩
        obtain ⟨s2, he, h1, h2⟩ := i1 hl
        cases he
        have : ¬ d ≤ s' := fun hx => by
          have := (hd s').2 hx
          simp only [renewBefore] at hw
          omega
        exact ⟨_, rfl, by omega, Or.inl (by simp only [renewPoll]; omega)⟩
      | @order _ s' ho =>
        refine ⟨by simp, ?_⟩
        intro x r hl
        cases l with
        | nil =>
          obtain ⟨s2, he, h1, h2⟩ := i1 rfl
          cases he
          simp only [Option.toList, List.nil_append, List.cons.injEq] at hl
          rw [← hl.1]
          exact ⟨(hd s').1 ho, h1, h2⟩
        | cons y ys =>
          simp only [List.cons_append, List.cons.injEq] at hl
          exact i2 x ys (by rw [hl.1])
      | success _ =>
        simp only [Option.toList, List.append_nil]
        refine ⟨fun hl => ?_, i2⟩
        obtain ⟨s', he, _⟩ := i1 hl
        cases he
      | failure =>
        simp only [Option.toList, List.append_nil]
        refine ⟨fun hl => ?_, i2⟩
        obtain ⟨s', he, _⟩ := i1 hl
        cases he
  exact (inv b [s] h).2 s [] rfl

/-- **C84 (violated: renewal goes on)**: after one order that failed — the authority out of reach for a moment — the
loop orders nothing ever again, until the server is restarted. -/
theorem C84_violated_renewal_ends {untilR : Option TCert → Nat → Nat} {key : Nat → Option TCert} {l : List Nat}
    {b : ALoop} (h : ASteps untilR key .ended l b) : l = [] ∧ b = .ended := by
  induction h with
  | refl => exact ⟨rfl, rfl⟩
  | step _ hs ih =>
    obtain ⟨i1, i2⟩ := ih
    subst i2
    cases hs

/-- And the loop can get there from the start: with no certificate the first order begins at once, and may fail. -/
theorem C84_renewal_can_end (untilR : Option TCert → Nat → Nat) (key : Nat → Option TCert) (t : Nat)
    (h : untilR (key t) t ≤ 14 * 86400) : ASteps untilR key (ALoop.start key t) [t] .ended :=
  ASteps.step (ASteps.step .refl (AStep.order h)) .failure

/-- A function for how long a certificate is good: certificate `id` is to be renewed at `id` days. -/
def exUntil (k : Option TCert) (t : Nat) : Nat :=
  match k with
  | none => 0
  | some c => c.id * 86400 - t

/-- **C84 (violated: the certificate that counts)**: the loop keeps the certificate it took when it began to wait.  One
installed by hand meanwhile is good for 90 more days, and an order for a new one begins all the same. -/
theorem C84_violated_installed_ignored :
    ∃ key : Nat → Option TCert, ∃ s, ASteps exUntil key (ALoop.start key 0) [s] (.ordering (key 0) s) ∧
      exUntil (key s) s > 14 * 86400 := by
  refine ⟨fun t => if t = 0 then some ⟨15, 0, true⟩ else some ⟨100, 1, true⟩, ?_⟩
  have hd : ∀ s, exUntil (some ⟨15, 0, true⟩) s ≤ 14 * 86400 ↔ 86400 ≤ s := by
    intro s; simp only [exUntil]; omega
  obtain ⟨s, h1, h2, h3, h4⟩ := C84_in_time exUntil (fun t => if t = 0 then some ⟨15, 0, true⟩ else some ⟨100, 1, true⟩)
    (some ⟨15, 0, true⟩) 0 86400 hd
  refine ⟨s, h1, ?_⟩
  have : s ≠ 0 := by omega
  simp only [this, if_false, exUntil]
  omega

/-! ## What goes wrong -/

/-- **C84 (violated: a failed install changes nothing)**: a certificate whose key is not ECDSA — RSA, say — is refused
with an error, but by then the stored one has been replaced: after a restart the server has no certificate to present. -/
theorem C84_violated_failed_install (w : TW) (c : TCert) (h : c.ecdsa = false) :
    TTask.run 8 w (TTask.new .install c) = ({ w with stored := some c }, ⟨.install, c, .err⟩) ∧
    ∀ d, (TTask.run 8 { w with stored := some c, cache := none } (TTask.new .refresh d)).1.cache = none := by
  obtain ⟨st, ca, pi, ts⟩ := w
  constructor
  · cases pi <;> simp [TTask.run, TTask.new, TTask.next, TTask.installed, h]
  · intro d
    simp [TTask.run, TTask.new, TTask.next, h]

def exCertA : TCert := ⟨1, 10, true⟩
def exCertB : TCert := ⟨2, 20, true⟩

/-- **C84 (violated: what is presented is what is stored)**: two installs at once, both successful, and TLS connections
are given the certificate that is not the stored one — until the next install or restart. -/
theorem C84_violated_two_installs :
    ∃ w, TSteps ⟨none, none, none, []⟩ [(.install, exCertA), (.install, exCertB)] w ∧
      (∀ t ∈ w.tasks, t.stage = .ok) ∧ w.tasks.length = 2 ∧ w.stored = some exCertB ∧ w.cache = some exCertA := by
  have e0 := TSteps.refl (w := ⟨none, none, none, []⟩)
  have e1 := TSteps.step e0 (.start .install exCertA)
  have e2 := TSteps.step e1 (.start .install exCertB)
  have e3 := TSteps.step e2 (.go (i := 0) (t := ⟨.install, exCertA, .write⟩) rfl)
  have e4 := TSteps.step e3 (.go (i := 0) (t := ⟨.install, exCertA, .read⟩) rfl)
  have e5 := TSteps.step e4 (.go (i := 1) (t := ⟨.install, exCertB, .write⟩) rfl)
  have e6 := TSteps.step e5 (.go (i := 1) (t := ⟨.install, exCertB, .read⟩) rfl)
  have e7 := TSteps.step e6 (.go (i := 1) (t := ⟨.install, exCertB, .set exCertB⟩) rfl)
  have e8 := TSteps.step e7 (.go (i := 0) (t := ⟨.install, exCertA, .set exCertA⟩) rfl)
  have e9 := TSteps.step e8 (.go (i := 0) (t := ⟨.install, exCertA, .lookup⟩) rfl)
  have e10 := TSteps.step e9 (.go (i := 1) (t := ⟨.install, exCertB, .lookup⟩) rfl)
  exact ⟨_, e10, by decide, rfl, rfl, rfl⟩

/-- **C84 (violated: without overwrite)**: two self-signed installs at once, neither with `overwrite`, both succeed, the
second replacing the first's certificate. -/
theorem C84_violated_both_succeed :
    ∃ w, TSteps ⟨none, none, none, []⟩ [(.selfSigned false, exCertA), (.selfSigned false, exCertB)] w ∧
      (∀ t ∈ w.tasks, t.stage = .ok) ∧ w.tasks.length = 2 ∧ w.stored = some exCertB := by
  have e0 := TSteps.refl (w := ⟨none, none, none, []⟩)
  have e1 := TSteps.step e0 (.start (.selfSigned false) exCertA)
  have e2 := TSteps.step e1 (.start (.selfSigned false) exCertB)
  have e3 := TSteps.step e2 (.go (i := 0) (t := ⟨.selfSigned false, exCertA, .check⟩) rfl)
  have e4 := TSteps.step e3 (.go (i := 1) (t := ⟨.selfSigned false, exCertB, .check⟩) rfl)
  have e5 := TSteps.step e4 (.go (i := 0) (t := ⟨.selfSigned false, exCertA, .write⟩) rfl)
  have e6 := TSteps.step e5 (.go (i := 0) (t := ⟨.selfSigned false, exCertA, .read⟩) rfl)
  have e7 := TSteps.step e6 (.go (i := 0) (t := ⟨.selfSigned false, exCertA, .set exCertA⟩) rfl)
  have e8 := TSteps.step e7 (.go (i := 0) (t := ⟨.selfSigned false, exCertA, .lookup⟩) rfl)
  have e9 := TSteps.step e8 (.go (i := 0) (t := ⟨.selfSigned false, exCertA, .pin⟩) rfl)
  have e10 := TSteps.step e9 (.go (i := 1) (t := ⟨.selfSigned false, exCertB, .write⟩) rfl)
  have e11 := TSteps.step e10 (.go (i := 1) (t := ⟨.selfSigned false, exCertB, .read⟩) rfl)
  have e12 := TSteps.step e11 (.go (i := 1) (t := ⟨.selfSigned false, exCertB, .set exCertB⟩) rfl)
  have e13 := TSteps.step e12 (.go (i := 1) (t := ⟨.selfSigned false, exCertB, .lookup⟩) rfl)
  have e14 := TSteps.step e13 (.go (i := 1) (t := ⟨.selfSigned false, exCertB, .removeFile⟩) rfl)
  have e15 := TSteps.step e14 (.go (i := 1) (t := ⟨.selfSigned false, exCertB, .pin⟩) rfl)
  exact ⟨_, e15, by decide, rfl, rfl⟩

/-- **C84 (violated: the pinned file fits)**: the process ending between the writes leaves the new certificate stored
and the old one's leaf pinned: clients that pin the file refuse the server, and nothing puts it right at the restart. -/
theorem C84_violated_crash :
    ∃ w, TSteps ⟨some exCertA, some exCertA, some exCertA.leaf, []⟩ [(.selfSigned true, exCertB), (.refresh, exCertB)] w ∧
      w.cache = some exCertB ∧ w.stored = some exCertB ∧ w.pinned = some exCertA.leaf ∧
      ∀ t ∈ w.tasks, t.stage = .ok := by
  have e0 := TSteps.refl (w := ⟨some exCertA, some exCertA, some exCertA.leaf, []⟩)
  have e1 := TSteps.step e0 (.start (.selfSigned true) exCertB)
  have e2 := TSteps.step e1 (.go (i := 0) (t := ⟨.selfSigned true, exCertB, .check⟩) rfl)
  have e3 := TSteps.step e2 (.go (i := 0) (t := ⟨.selfSigned true, exCertB, .write⟩) rfl)
  have e4 := TSteps.step e3 .crash
  have e5 := TSteps.step e4 (.start .refresh exCertB)
  have e6 := TSteps.step e5 (.go (i := 0) (t := ⟨.refresh, exCertB, .read⟩) rfl)
  have e7 := TSteps.step e6 (.go (i := 0) (t := ⟨.refresh, exCertB, .set exCertB⟩) rfl)
  exact ⟨_, e7, rfl, rfl, rfl, by decide⟩

/-! ## The hypotheses are met -/

example : exCertA.ecdsa = true ∧ (TW.mk none none none []).stored = none := ⟨rfl, rfl⟩

/-- A restart, a self-signed install refused, a listener: the hypotheses of `C84_no_overwrite` and `C84_presented`. -/
example : ∃ w, TSteps ⟨some exCertA, none, some 10, []⟩ [(.selfSigned false, exCertB), (.refresh, exCertB)] w ∧
    w.cache = some exCertA ∧ w.pinned = some 10 := by
  have e0 := TSteps.refl (w := ⟨some exCertA, none, some 10, []⟩)
  have e1 := TSteps.step e0 (.start (.selfSigned false) exCertB)
  have e2 := TSteps.step e1 (.start .refresh exCertB)
  have e3 := TSteps.step e2 (.go (i := 0) (t := ⟨.selfSigned false, exCertB, .check⟩) rfl)
  have e4 := TSteps.step e3 (.go (i := 1) (t := ⟨.refresh, exCertB, .read⟩) rfl)
  have e5 := TSteps.step e4 (.go (i := 1) (t := ⟨.refresh, exCertB, .set exCertA⟩) rfl)
  exact ⟨_, e5, rfl, rfl⟩

/-- `exUntil` is such a function for every certificate. -/
example (c : TCert) (s : Nat) : exUntil (some c) s ≤ 14 * 86400 ↔ (c.id - 14) * 86400 ≤ s := by
  simp only [exUntil]; omega

end Bonsai.Net
