import Verif.Async.Model

/-!
# C85 — asynchronous calls: each takes effect once, between call and return

The specification is sequential: `seqRun` executes requests one after another on the blocking storage.
-/
set_option linter.unusedVariables false
set_option linter.unusedSimpArgs false

namespace Bonsai.Asyn

variable {S Q R : Type}

/-! ## Specification -/

/-- Requests, one after another: the state after them and the result of each. -/
def seqRun (exec : S → Q → S × Option R) : S → List (Nat × Q) → S × List (Nat × Option R)
  | s, [] => (s, [])
  | s, (i, q) :: l => ((seqRun exec (exec s q).1 l).1, (i, (exec s q).2) :: (seqRun exec (exec s q).1 l).2)

/-- The calls that took effect, in the order in which they did. -/
def effects : List (AEv Q R) → List (Nat × Q)
  | [] => []
  | .effect i q :: l => (i, q) :: effects l
  | _ :: l => effects l

/-! ## Lemmas -/

theorem effects_append (l m : List (AEv Q R)) : effects (l ++ m) = effects l ++ effects m := by
  induction l with
  | nil => rfl
  | cons e l ih => cases e <;> simp [effects, ih]

theorem mem_effects {l : List (AEv Q R)} {i : Nat} {q : Q} : (i, q) ∈ effects l ↔ AEv.effect i q ∈ l := by
  induction l with
  | nil => simp [effects]
  | cons e l ih => cases e <;> simp [effects, ih]

theorem seqRun_append (exec : S → Q → S × Option R) (l m : List (Nat × Q)) : ∀ s,
    seqRun exec s (l ++ m) =
      ((seqRun exec (seqRun exec s l).1 m).1, (seqRun exec s l).2 ++ (seqRun exec (seqRun exec s l).1 m).2) := by
  induction l with
  | nil => intro s; simp [seqRun]
  | cons x l ih => intro s; obtain ⟨i, q⟩ := x; simp [seqRun, ih]

/-- A split of a list with one more element at its end. -/
theorem split_snoc {α : Type} {l a b : List α} {e x : α} (h : l ++ [e] = a ++ x :: b) :
    (a = l ∧ x = e ∧ b = []) ∨ ∃ b', b = b' ++ [e] ∧ l = a ++ x :: b' := by
  rcases List.eq_nil_or_concat b with hb | ⟨b', y, hb⟩
  · subst hb
    have := List.append_inj' h rfl
    simp only [List.cons.injEq, and_true] at this
    exact Or.inl ⟨this.1.symm, this.2.symm, rfl⟩
  · subst hb
    have h' : l ++ [e] = (a ++ x :: b') ++ [y] := by simpa using h
    have := List.append_inj' h' rfl
    simp only [List.cons.injEq, and_true] at this
    exact Or.inr ⟨b', by rw [this.2]; simp, this.1⟩

/-! ## The invariant -/

/-- What is known of a call. -/
structure CallInv (exec : S → Q → S × Option R) (s₀ : S) (log : List (AEv Q R)) (i : Nat) (c : ACall Q R) : Prop where
  began : AEv.began i c.req ∈ log
  notYet : (∀ r, c.stage ≠ .done r) → ∀ q, AEv.effect i q ∉ log
  result : ∀ r, c.stage = .done r → AEv.effect i c.req ∈ log ∧ (i, r) ∈ (seqRun exec s₀ (effects log)).2

/-- The invariant. -/
structure AsInv (exec : S → Q → S × Option R) (s₀ : S) (w : AWorld S Q R) : Prop where
  state : w.state = (seqRun exec s₀ (effects w.log)).1
  once : ((effects w.log).map Prod.fst).Nodup
  range : ∀ i q, AEv.began i q ∈ w.log → ∃ c, w.calls[i]? = some c ∧ c.req = q
  effd : ∀ i q, AEv.effect i q ∈ w.log → ∃ c r, w.calls[i]? = some c ∧ c.req = q ∧ c.stage = .done r
  calls : ∀ i c, w.calls[i]? = some c → CallInv exec s₀ w.log i c
  before : ∀ a i q b, w.log = a ++ AEv.effect i q :: b → AEv.began i q ∈ a
  answers : ∀ a i x b, w.log = a ++ AEv.returned i x :: b →
    ∃ c, w.calls[i]? = some c ∧
      ((c.stage = .cancelled ∧ x = .join) ∨ ∃ r, c.stage = .done r ∧ x = AAns.of r ∧ AEv.effect i c.req ∈ a)

theorem CallInv.mono {exec : S → Q → S × Option R} {s₀ : S} {log more : List (AEv Q R)} {i : Nat} {c : ACall Q R}
    (h : CallInv exec s₀ log i c) (hm : ∀ q, AEv.effect i q ∉ more) : CallInv exec s₀ (log ++ more) i c := by
  refine ⟨List.mem_append_left _ h.began, ?_, ?_⟩
  · intro hc q hq
    rcases List.mem_append.1 hq with hq | hq
    · exact h.notYet hc q hq
    · exact hm q hq
  · intro r hr
    obtain ⟨a, b⟩ := h.result r hr
    refine ⟨List.mem_append_left _ a, ?_⟩
    rw [effects_append, seqRun_append]
    exact List.mem_append_left _ b

/-- A call stays what it is but for its flags. -/
theorem CallInv.flags {exec : S → Q → S × Option R} {s₀ : S} {log : List (AEv Q R)} {i : Nat} {c c' : ACall Q R}
    (h : CallInv exec s₀ log i c) (hq : c'.req = c.req) (hs : c'.stage = c.stage) : CallInv exec s₀ log i c' :=
  ⟨hq ▸ h.began, fun x => h.notYet (fun r => hs ▸ x r), fun r hr => by rw [hq]; exact h.result r (hs ▸ hr)⟩

/-- A call that has not taken effect goes on. -/
theorem CallInv.goes {exec : S → Q → S × Option R} {s₀ : S} {log : List (AEv Q R)} {i : Nat} {c c' : ACall Q R}
    (h : CallInv exec s₀ log i c) (hq : c'.req = c.req) (hs : ∀ r, c.stage ≠ .done r) (hs' : ∀ r, c'.stage ≠ .done r) :
    CallInv exec s₀ log i c' :=
  ⟨hq ▸ h.began, fun _ => h.notYet hs, fun r hr => absurd hr (hs' r)⟩

/-- Calls are replaced by ones with the same request, and finished ones stay finished. -/
def Kept (cs cs' : List (ACall Q R)) : Prop :=
  ∀ (i : Nat) (c : ACall Q R), cs[i]? = some c → ∃ c' : ACall Q R, cs'[i]? = some c' ∧ c'.req = c.req ∧ (∀ r, c.stage = .done r → c'.stage = .done r) ∧
    (c.stage = .cancelled → c'.stage = .cancelled)

theorem Kept.set {cs : List (ACall Q R)} {i : Nat} {c c' : ACall Q R} (h : cs[i]? = some c) (hq : c'.req = c.req)
    (hd : ∀ r, c.stage = .done r → c'.stage = .done r) (hc : c.stage = .cancelled → c'.stage = .cancelled) :
    Kept cs (cs.set i c') := by
  intro j d hj
  by_cases hij : i = j
  · subst hij
    rw [h] at hj
    cases hj
    have hlt : i < cs.length := (List.getElem?_eq_some_iff.1 h).1
    exact ⟨c', by simp [List.getElem?_set, hlt], hq, hd, hc⟩
  · exact ⟨d, by rw [List.getElem?_set_ne hij]; exact hj, rfl, fun _ h => h, id⟩

theorem Kept.append {cs : List (ACall Q R)} (c : ACall Q R) : Kept cs (cs ++ [c]) := by
  intro i d h
  have hlt : i < cs.length := (List.getElem?_eq_some_iff.1 h).1
  exact ⟨d, by rw [List.getElem?_append_left hlt]; exact h, rfl, fun _ h => h, id⟩

theorem Kept.stop {cs : List (ACall Q R)} (rt : Nat) : Kept cs (cs.map (ACall.stop rt)) := by
  intro i d h
  refine ⟨ACall.stop rt d, by simp [h], ?_, ?_, ?_⟩
  · unfold ACall.stop; split <;> rfl
  · intro r hr; simp [ACall.stop, hr, AStage.isQueued]
  · intro hr; simp [ACall.stop, hr, AStage.isQueued]

/-- A step that shows no effect keeps the invariant. -/
theorem asInv_quiet {exec : S → Q → S × Option R} {s₀ : S} {w : AWorld S Q R} {cs : List (ACall Q R)} {dn : Nat → Bool}
    {more : List (AEv Q R)} (h : AsInv exec s₀ w) (hk : Kept w.calls cs)
    (hm : more = [] ∨ ∃ e, more = [e] ∧ ∀ i q, e ≠ AEv.effect i q)
    (hb : ∀ i q, AEv.began i q ∈ more → ∃ c, cs[i]? = some c ∧ c.req = q)
    (hr : ∀ i x, AEv.returned i x ∈ more → ∃ c, cs[i]? = some c ∧
      ((c.stage = .cancelled ∧ x = .join) ∨ ∃ r, c.stage = .done r ∧ x = AAns.of r ∧ AEv.effect i c.req ∈ w.log))
    (hc : ∀ i c, cs[i]? = some c → CallInv exec s₀ (w.log ++ more) i c) :
    AsInv exec s₀ ⟨w.state, cs, dn, w.log ++ more⟩ := by
  have hne : effects more = [] := by
    rcases hm with rfl | ⟨e, rfl, he⟩
    · rfl
    · cases e with
      | effect i q => exact absurd rfl (he i q)
      | _ => rfl
  have hnm : ∀ i q, AEv.effect i q ∉ more := by
    intro i q hx
    rw [← mem_effects, hne] at hx
    cases hx
  refine ⟨?_, ?_, ?_, ?_, hc, ?_, ?_⟩
  · simp only [effects_append, hne, List.append_nil]; exact h.state
  · simp only [effects_append, hne, List.append_nil]; exact h.once
  · intro i q hq
    rcases List.mem_append.1 hq with hq | hq
    · obtain ⟨c, h1, h2⟩ := h.range i q hq
      obtain ⟨c', h3, h4, _⟩ := hk i c h1
      exact ⟨c', h3, h4.trans h2⟩
    · exact hb i q hq
  · intro i q hq
    rcases List.mem_append.1 hq with hq | hq
    · obtain ⟨c, r, h1, h2, h3⟩ := h.effd i q hq
      obtain ⟨c', h4, h5, h6, _⟩ := hk i c h1
      exact ⟨c', r, h4, h5.trans h2, h6 r h3⟩
    · exact absurd hq (hnm i q)
  · intro a i q b hl
    simp only at hl
    rcases hm with rfl | ⟨e, rfl, he⟩
    · rw [List.append_nil] at hl; exact h.before a i q b hl
    · rcases split_snoc hl with ⟨_, hx, _⟩ | ⟨b', _, hl'⟩
      · exact absurd hx.symm (he i q)
      · exact h.before a i q b' hl'
  · intro a i x b hl
    simp only at hl
    have old : ∀ b', w.log = a ++ AEv.returned i x :: b' → ∃ c, cs[i]? = some c ∧
        ((c.stage = .cancelled ∧ x = .join) ∨ ∃ r, c.stage = .done r ∧ x = AAns.of r ∧ AEv.effect i c.req ∈ a) := by
      intro b' hl'
      obtain ⟨c, h1, h2⟩ := h.answers a i x b' hl'
      obtain ⟨c', h3, h4, h5, h6⟩ := hk i c h1
      refine ⟨c', h3, ?_⟩
      rcases h2 with ⟨h2, h7⟩ | ⟨r, h2, h7, h8⟩
      · exact Or.inl ⟨h6 h2, h7⟩
      · exact Or.inr ⟨r, h5 r h2, h7, h4 ▸ h8⟩
    rcases hm with rfl | ⟨e, rfl, he⟩
    · rw [List.append_nil] at hl; exact old b hl
    · rcases split_snoc hl with ⟨ha, hx, _⟩ | ⟨b', _, hl'⟩
      · subst hx
        rw [ha]
        exact hr i x (List.mem_singleton.2 rfl)
      · exact old b' hl'

/-- A call takes effect. -/
theorem asInv_effect {exec : S → Q → S × Option R} {s₀ : S} {w : AWorld S Q R} {i : Nat} {c : ACall Q R}
    (h : AsInv exec s₀ w) (hi : w.calls[i]? = some c) (hs : c.stage = .running) :
    AsInv exec s₀ ⟨(exec w.state c.req).1, w.calls.set i { c with stage := .done (exec w.state c.req).2 }, w.down,
      w.log ++ [.effect i c.req]⟩ := by
  have hlt : i < w.calls.length := (List.getElem?_eq_some_iff.1 hi).1
  have hci := h.calls i c hi
  have hno : ∀ q, AEv.effect i q ∉ w.log := hci.notYet (by simp [hs])
  have hk : Kept w.calls (w.calls.set i { c with stage := .done (exec w.state c.req).2 }) :=
    Kept.set hi rfl (by simp [hs]) (by simp [hs])
  have heff : effects (w.log ++ [AEv.effect (R := R) i c.req]) = effects w.log ++ [(i, c.req)] := by
    rw [effects_append]; rfl
  refine ⟨?_, ?_, ?_, ?_, ?_, ?_, ?_⟩
  · simp only [heff, seqRun_append, seqRun, ← h.state]
  · simp only [heff, List.map_append, List.map_cons, List.map_nil]
    rw [List.nodup_append]
    refine ⟨h.once, by simp, ?_⟩
    intro a ha b hb
    simp only [List.mem_map, Prod.exists] at ha
    obtain ⟨j, q, hj, rfl⟩ := ha
    rw [List.mem_singleton.1 hb]
    intro he
    have he' : j = i := he
    subst he'
    exact hno q (mem_effects.1 hj)
  · intro j q hq
    simp only [List.mem_append, List.mem_singleton, reduceCtorEq, or_false] at hq
    obtain ⟨d, h1, h2⟩ := h.range j q hq
    obtain ⟨d', h3, h4, _⟩ := hk j d h1
    exact ⟨d', h3, h4.trans h2⟩
  · intro j q hq
    simp only [List.mem_append, List.mem_singleton, AEv.effect.injEq] at hq
    rcases hq with hq | ⟨rfl, rfl⟩
    · obtain ⟨d, r, h1, h2, h3⟩ := h.effd j q hq
      obtain ⟨d', h4, h5, h6, _⟩ := hk j d h1
      exact ⟨d', r, h4, h5.trans h2, h6 r h3⟩
    · exact ⟨{ c with stage := .done (exec w.state c.req).2 }, _, by simp only [List.getElem?_set, hlt, if_true], rfl, rfl⟩
  · intro j d hj
    simp only at hj
    by_cases hij : i = j
    · subst hij
      simp only [List.getElem?_set, hlt, if_true, Option.some.injEq] at hj
      subst hj
      refine ⟨List.mem_append_left _ hci.began, fun hx => absurd rfl (hx _), ?_⟩
      intro r hr
      simp only [AStage.done.injEq] at hr
      subst hr
      refine ⟨by simp, ?_⟩
      simp only [heff, seqRun_append, seqRun, ← h.state]
      simp
    · rw [List.getElem?_set_ne hij] at hj
      refine (h.calls j d hj).mono ?_
      intro q hq
      simp only [List.mem_singleton, AEv.effect.injEq] at hq
      exact hij hq.1.symm
  · intro a j q b hl
    rcases split_snoc hl with ⟨ha, hx, _⟩ | ⟨b', _, hl'⟩
    · simp only [AEv.effect.injEq] at hx
      obtain ⟨rfl, rfl⟩ := hx
      rw [ha]
      exact hci.began
    · exact h.before a j q b' hl'
  · intro a j x b hl
    rcases split_snoc hl with ⟨_, hx, _⟩ | ⟨b', _, hl'⟩
    · cases hx
    · obtain ⟨d, h1, h2⟩ := h.answers a j x b' hl'
      obtain ⟨d', h3, h4, h5, h6⟩ := hk j d h1
      refine ⟨d', h3, ?_⟩
      rcases h2 with ⟨h2, h7⟩ | ⟨r, h2, h7, h8⟩
      · exact Or.inl ⟨h6 h2, h7⟩
      · exact Or.inr ⟨r, h5 r h2, h7, h4 ▸ h8⟩

/-- A new call. -/
theorem asInv_began {exec : S → Q → S × Option R} {s₀ : S} {w : AWorld S Q R} (h : AsInv exec s₀ w) (c : ACall Q R)
    (hs : ∀ r, c.stage ≠ .done r) :
    AsInv exec s₀ ⟨w.state, w.calls ++ [c], w.down, w.log ++ [.began w.calls.length c.req]⟩ := by
  refine asInv_quiet h (Kept.append c) (Or.inr ⟨_, rfl, by simp⟩) ?_ (by simp) ?_
  · intro i q hq
    simp only [List.mem_singleton, AEv.began.injEq] at hq
    obtain ⟨rfl, rfl⟩ := hq
    exact ⟨c, by simp, rfl⟩
  · intro i d hd
    by_cases hlt : i < w.calls.length
    · rw [List.getElem?_append_left hlt] at hd
      exact (h.calls i d hd).mono (by simp)
    · have hle := (List.getElem?_eq_some_iff.1 hd).1
      simp only [List.length_append, List.length_singleton] at hle
      have : i = w.calls.length := by omega
      subst this
      simp only [List.getElem?_append_right (Nat.le_refl _), Nat.sub_self, List.getElem?_cons_zero,
        Option.some.injEq] at hd
      subst hd
      refine ⟨by simp, ?_, fun r hr => absurd hr (hs r)⟩
      intro _ q hq
      simp only [List.mem_append, List.mem_singleton, reduceCtorEq, or_false] at hq
      obtain ⟨d, r, h1, _⟩ := h.effd _ q hq
      simp at h1

theorem asInv_step {exec : S → Q → S × Option R} {s₀ : S} {w w' : AWorld S Q R} (h : AsInv exec s₀ w)
    (hs : AsStep exec w w') : AsInv exec s₀ w' := by
  cases hs with
  | spawn q rt =>
    exact asInv_began h ⟨q, rt, if w.down rt then .cancelled else .queued, false, false⟩ (by intro r; dsimp; split <;> simp)
  | @direct r q rt he =>
    -- call, effect and answer in one step
    have h1 := asInv_began h ⟨q, rt, .running, false, false⟩ (by simp)
    have h2 := asInv_effect (i := w.calls.length) (c := ⟨q, rt, .running, false, false⟩) h1 (by simp) rfl
    simp only [he] at h2
    have hset : (w.calls ++ [(⟨q, rt, .running, false, false⟩ : ACall Q R)]).set w.calls.length
        ⟨q, rt, .done (some r), false, false⟩ = w.calls ++ [⟨q, rt, .done (some r), false, false⟩] := by simp
    rw [hset] at h2
    have hget : (w.calls ++ [(⟨q, rt, .done (some r), false, false⟩ : ACall Q R)])[w.calls.length]? =
        some ⟨q, rt, .done (some r), false, false⟩ := by simp
    have hset' : w.calls ++ [⟨q, rt, .done (some r), false, true⟩] =
        (w.calls ++ [(⟨q, rt, .done (some r), false, false⟩ : ACall Q R)]).set w.calls.length
          ⟨q, rt, .done (some r), false, true⟩ := by simp
    have h3 := asInv_quiet (cs := w.calls ++ [⟨q, rt, .done (some r), false, true⟩]) (dn := w.down)
      (more := [.returned w.calls.length (.ok r)]) h2
      (by rw [hset']; exact Kept.set hget rfl (fun _ h => h) (fun h => h))
      (Or.inr ⟨_, rfl, by simp⟩) (by simp) ?_ ?_
    · simpa using h3
    · intro i x hx
      simp only [List.mem_singleton, AEv.returned.injEq] at hx
      obtain ⟨rfl, rfl⟩ := hx
      exact ⟨⟨q, rt, .done (some r), false, true⟩, by simp, Or.inr ⟨some r, rfl, rfl, by simp⟩⟩
    · intro i c hc
      rw [hset'] at hc
      by_cases hij : w.calls.length = i
      · subst hij
        have hlt : w.calls.length < (w.calls ++ [(⟨q, rt, .done (some r), false, false⟩ : ACall Q R)]).length := by simp
        rw [List.getElem?_set] at hc
        simp only [if_true, hlt, Option.some.injEq] at hc
        subst hc
        exact ((h2.calls _ _ hget).mono (by simp)).flags rfl rfl
      · rw [List.getElem?_set_ne hij] at hc
        exact (h2.calls i c hc).mono (by simp)
  | @take i c hi hs =>
    have := asInv_quiet (cs := w.calls.set i { c with stage := .running }) (dn := w.down) (more := []) h
      (Kept.set hi rfl (by simp [hs]) (by simp [hs])) (Or.inl rfl) (by simp) (by simp) ?_
    · simpa using this
    · intro j d hj
      rw [List.append_nil]
      by_cases hij : i = j
      · subst hij
        have hlt : i < w.calls.length := (List.getElem?_eq_some_iff.1 hi).1
        simp only [List.getElem?_set, hlt, if_true, Option.some.injEq] at hj
        subst hj
        exact (h.calls i c hi).goes rfl (by simp [hs]) (by simp)
      · rw [List.getElem?_set_ne hij] at hj
        exact h.calls j d hj
  | @effect i c hi hs => exact asInv_effect h hi hs
  | @answer i c r hi hs hd ha =>
    refine asInv_quiet h (Kept.set hi rfl (fun _ h => h) (fun h => h)) (Or.inr ⟨_, rfl, by simp⟩) (by simp) ?_ ?_
    · intro j x hx
      simp only [List.mem_singleton, AEv.returned.injEq] at hx
      obtain ⟨rfl, rfl⟩ := hx
      have hlt : j < w.calls.length := (List.getElem?_eq_some_iff.1 hi).1
      exact ⟨{ c with answered := true }, by simp only [List.getElem?_set, hlt, if_true], Or.inr ⟨r, hs, rfl, ((h.calls j c hi).result r hs).1⟩⟩
    · intro j d hj
      by_cases hij : i = j
      · subst hij
        have hlt : i < w.calls.length := (List.getElem?_eq_some_iff.1 hi).1
        simp only [List.getElem?_set, hlt, if_true, Option.some.injEq] at hj
        subst hj
        exact ((h.calls i c hi).mono (by simp)).flags rfl rfl
      · rw [List.getElem?_set_ne hij] at hj
        exact (h.calls j d hj).mono (by simp)
  | @refuse i c hi hs hd ha =>
    refine asInv_quiet h (Kept.set hi rfl (fun _ h => h) (fun h => h)) (Or.inr ⟨_, rfl, by simp⟩) (by simp) ?_ ?_
    · intro j x hx
      simp only [List.mem_singleton, AEv.returned.injEq] at hx
      obtain ⟨rfl, rfl⟩ := hx
      have hlt : j < w.calls.length := (List.getElem?_eq_some_iff.1 hi).1
      exact ⟨{ c with answered := true }, by simp only [List.getElem?_set, hlt, if_true], Or.inl ⟨hs, rfl⟩⟩
    · intro j d hj
      by_cases hij : i = j
      · subst hij
        have hlt : i < w.calls.length := (List.getElem?_eq_some_iff.1 hi).1
        simp only [List.getElem?_set, hlt, if_true, Option.some.injEq] at hj
        subst hj
        exact ((h.calls i c hi).mono (by simp)).flags rfl rfl
      · rw [List.getElem?_set_ne hij] at hj
        exact (h.calls j d hj).mono (by simp)
  | @drop i c hi ha =>
    refine asInv_quiet h (Kept.set hi rfl (fun _ h => h) (fun h => h)) (Or.inr ⟨_, rfl, by simp⟩) (by simp) (by simp) ?_
    intro j d hj
    by_cases hij : i = j
    · subst hij
      have hlt : i < w.calls.length := (List.getElem?_eq_some_iff.1 hi).1
      simp only [List.getElem?_set, hlt, if_true, Option.some.injEq] at hj
      subst hj
      exact ((h.calls i c hi).mono (by simp)).flags rfl rfl
    · rw [List.getElem?_set_ne hij] at hj
      exact (h.calls j d hj).mono (by simp)
  | shutdown rt =>
    have := asInv_quiet (cs := w.calls.map (ACall.stop rt)) (dn := fun r => r == rt || w.down r) (more := []) h
      (Kept.stop rt) (Or.inl rfl) (by simp) (by simp) ?_
    · simpa using this
    · intro j d hj
      rw [List.append_nil]
      simp only [List.getElem?_map, Option.map_eq_some_iff] at hj
      obtain ⟨c, hc, rfl⟩ := hj
      unfold ACall.stop
      split
      · rename_i hx
        cases hst : c.stage with
        | queued => exact (h.calls j c hc).goes rfl (by simp [hst]) (by simp)
        | _ => simp [hst, AStage.isQueued] at hx
      · exact h.calls j c hc

theorem asInv_steps {exec : S → Q → S × Option R} {s₀ : S} {w : AWorld S Q R} (h : AsSteps exec (AWorld.fresh s₀) w) :
    AsInv exec s₀ w := by
  induction h with
  | refl =>
    exact ⟨rfl, by simp [AWorld.fresh, effects], by simp [AWorld.fresh], by simp [AWorld.fresh], by simp [AWorld.fresh],
      by simp [AWorld.fresh], by simp [AWorld.fresh]⟩
  | step _ hs ih => exact asInv_step ih hs

/-! ## The theorems -/

/-- **C85 (one after another)**: whatever calls are made at once, dropped or cancelled, the storage is as if the calls
that took effect had been made one after another through the blocking interface, each of them once, with the request
(operation, arguments and session) it was made with, and after it was made. -/
theorem C85_sequential {exec : S → Q → S × Option R} {s₀ : S} {w : AWorld S Q R}
    (h : AsSteps exec (AWorld.fresh s₀) w) :
    w.state = (seqRun exec s₀ (effects w.log)).1 ∧ ((effects w.log).map Prod.fst).Nodup ∧
    ∀ a i q b, w.log = a ++ AEv.effect i q :: b → AEv.began i q ∈ a :=
  ⟨(asInv_steps h).state, (asInv_steps h).once, (asInv_steps h).before⟩

theorem fst_unique {α β : Type} {l : List (α × β)} {a : α} {b c : β} (h : (l.map Prod.fst).Nodup) (hb : (a, b) ∈ l)
    (hc : (a, c) ∈ l) : b = c := by
  induction l with
  | nil => cases hb
  | cons x l ih =>
    simp only [List.map_cons, List.nodup_cons] at h
    rcases List.mem_cons.1 hb with hb' | hb' <;> rcases List.mem_cons.1 hc with hc' | hc'
    · rw [← hb'] at hc'; exact (Prod.mk.inj hc').2.symm
    · subst hb'
      have hm : a ∈ l.map Prod.fst := List.mem_map.2 ⟨(a, c), hc', rfl⟩
      exact absurd hm h.1
    · subst hc'
      have hm : a ∈ l.map Prod.fst := List.mem_map.2 ⟨(a, b), hb', rfl⟩
      exact absurd hm h.1
    · exact ih h.2 hb' hc'

theorem seqRun_fst (exec : S → Q → S × Option R) (l : List (Nat × Q)) : ∀ s,
    (seqRun exec s l).2.map Prod.fst = l.map Prod.fst := by
  induction l with
  | nil => intro s; rfl
  | cons x l ih => intro s; obtain ⟨i, q⟩ := x; simp [seqRun, ih]

/-- **C85 (its own answer)**: a call that returned a result took effect before, and the result is that of its own
request in that sequence. -/
theorem C85_result {exec : S → Q → S × Option R} {s₀ : S} {w : AWorld S Q R} (h : AsSteps exec (AWorld.fresh s₀) w)
    {a b : List (AEv Q R)} {i : Nat} {r : R} (hl : w.log = a ++ AEv.returned i (.ok r) :: b) :
    (∃ q, AEv.effect i q ∈ a) ∧ ∀ x, (i, x) ∈ (seqRun exec s₀ (effects w.log)).2 ↔ x = some r := by
  have hi := asInv_steps h
  obtain ⟨c, h1, h2⟩ := hi.answers a i _ b hl
  rcases h2 with ⟨_, h2⟩ | ⟨r', h2, h3, h4⟩
  · cases h2
  · have hr : r' = some r := by
      cases r' with
      | none => cases h3
      | some y => simp only [AAns.of, AAns.ok.injEq] at h3; rw [h3]
    subst hr
    have hm := ((hi.calls i c h1).result _ h2).2
    refine ⟨⟨_, h4⟩, fun x => ⟨fun hx => ?_, fun hx => hx ▸ hm⟩⟩
    refine fst_unique ?_ hx hm
    rw [seqRun_fst]; exact hi.once

/-- **C85 (an error of the runtime)**: a call that returned `TaskJoin` panicked while it took effect, or it has not
taken effect and never will. -/
theorem C85_join {exec : S → Q → S × Option R} {s₀ : S} {w : AWorld S Q R} (h : AsSteps exec (AWorld.fresh s₀) w)
    {i : Nat} (hr : AEv.returned i .join ∈ w.log) :
    (i, none) ∈ (seqRun exec s₀ (effects w.log)).2 ∨ ∀ q, AEv.effect i q ∉ w.log := by
  have hi := asInv_steps h
  obtain ⟨a, b, hl⟩ := List.append_of_mem hr
  obtain ⟨c, h1, h2⟩ := hi.answers a i _ b hl
  rcases h2 with ⟨h2, _⟩ | ⟨r', h2, h3, _⟩
  · exact Or.inr ((hi.calls i c h1).notYet (by simp [h2]))
  · cases r' with
    | none => exact Or.inl ((hi.calls i c h1).result _ h2).2
    | some y => cases h3

/-- A call is made once. -/
theorem began_once {exec : S → Q → S × Option R} {s₀ : S} {w : AWorld S Q R} (h : AsSteps exec (AWorld.fresh s₀) w) :
    ∀ a i q b, w.log = a ++ AEv.began i q :: b → ∀ q', AEv.began i q' ∉ a := by
  induction h with
  | refl => simp [AWorld.fresh]
  | @step w' w'' hs1 hs ih =>
    have hi := asInv_steps hs1
    have one : ∀ (e : AEv Q R), (∀ i q, e ≠ .began i q) →
        ∀ a i q b, w'.log ++ [e] = a ++ AEv.began i q :: b → ∀ q', AEv.began i q' ∉ a := by
      intro e he a i q b hl
      rcases split_snoc hl with ⟨_, hx, _⟩ | ⟨b', _, hl'⟩
      · exact absurd hx.symm (he i q)
      · exact ih a i q b' hl'
    have new : ∀ q₀, ∀ a i q b, w'.log ++ [AEv.began w'.calls.length q₀] = a ++ AEv.began i q :: b →
        ∀ q', AEv.began i q' ∉ a := by
      intro q₀ a i q b hl q' hq'
      rcases split_snoc hl with ⟨ha, hx, _⟩ | ⟨b', _, hl'⟩
      · simp only [AEv.began.injEq] at hx
        obtain ⟨rfl, rfl⟩ := hx
        rw [ha] at hq'
        obtain ⟨c, hc, _⟩ := hi.range _ _ hq'
        simp at hc
      · exact ih a i q b' hl' q' hq'
    cases hs with
    | spawn q rt => exact new q
    | @direct r q rt he =>
      intro a i q' b hl
      simp only at hl
      have e1 : w'.log ++ [AEv.began w'.calls.length q, AEv.effect w'.calls.length q, AEv.returned w'.calls.length (.ok r)]
          = ((w'.log ++ [AEv.began w'.calls.length q]) ++ [AEv.effect w'.calls.length q]) ++
            [AEv.returned w'.calls.length (.ok r)] := by simp
      rw [e1] at hl
      rcases split_snoc hl with ⟨_, hx, _⟩ | ⟨b', _, hl'⟩
      · cases hx
      · rcases split_snoc hl' with ⟨_, hx, _⟩ | ⟨b'', _, hl''⟩
        · cases hx
        · exact new q a i q' b'' hl''
    | take hi hs => exact ih
    | effect hi hs => exact one _ (by simp)
    | answer hi hs hd ha => exact one _ (by simp)
    | refuse hi hs hd ha => exact one _ (by simp)
    | drop hi ha => exact one _ (by simp)
    | shutdown rt => exact ih

/-- **C85 (the order of time)**: a call that returned a result before another was made comes before it in the sequence:
with `C85_sequential` and `C85_result`, the calls are linearizable. -/
theorem C85_real_time {exec : S → Q → S × Option R} {s₀ : S} {w : AWorld S Q R}
    (h : AsSteps exec (AWorld.fresh s₀) w) {a b : List (AEv Q R)} {i j : Nat} {r : R} {qj : Q}
    (hl : w.log = a ++ AEv.returned i (.ok r) :: b) (hj : AEv.began j qj ∈ b) {qj' : Q}
    (hej : AEv.effect j qj' ∈ w.log) :
    ∃ x y z qi, effects w.log = x ++ (i, qi) :: y ++ (j, qj') :: z := by
  obtain ⟨⟨qi, hqi⟩, _⟩ := C85_result h hl
  -- the effect of `j` is in `b`, as that call was made there
  have hja : AEv.effect j qj' ∈ b := by
    rw [hl] at hej
    rcases List.mem_append.1 hej with hx | hx
    · exfalso
      obtain ⟨a1, a2, ha⟩ := List.append_of_mem hx
      obtain ⟨b1, b2, hb⟩ := List.append_of_mem hj
      have h1 := (asInv_steps h).before a1 j qj' (a2 ++ AEv.returned i (.ok r) :: b) (by rw [hl, ha]; simp)
      have h2 := began_once h (a ++ AEv.returned i (.ok r) :: b1) j qj b2 (by rw [hl, hb]; simp) qj'
      apply h2
      rw [ha]
      simp [h1]
    · rcases List.mem_cons.1 hx with hx | hx
      · cases hx
      · exact hx
  obtain ⟨a1, a2, ha⟩ := List.append_of_mem hqi
  obtain ⟨b1, b2, hb⟩ := List.append_of_mem hja
  refine ⟨effects a1, effects a2 ++ effects b1, effects b2, qi, ?_⟩
  rw [hl, ha, hb]
  simp [effects_append, effects]

/-- **C85 (progress)**: a call whose runtime is up and whose future is kept can always be brought to its end. -/
theorem C85_progress {exec : S → Q → S × Option R} {w : AWorld S Q R} {i : Nat} {c : ACall Q R}
    (hi : w.calls[i]? = some c) (hd : c.dropped = false) (ha : c.answered = false) :
    ∃ w' x, AsSteps exec w w' ∧ AEv.returned i x ∈ w'.log := by
  have hlt : i < w.calls.length := (List.getElem?_eq_some_iff.1 hi).1
  have fin : ∀ (v : AWorld S Q R) (d : ACall Q R) (r : Option R), v.calls[i]? = some d → d.stage = .done r →
      d.dropped = false → d.answered = false → ∃ w' x, AsSteps exec v w' ∧ AEv.returned i x ∈ w'.log := by
    intro v d r h1 h2 h3 h4
    exact ⟨_, AAns.of r, AsSteps.step .refl (.answer h1 h2 h3 h4), by simp⟩
  have trans : ∀ {u v x : AWorld S Q R}, AsSteps exec u v → AsSteps exec v x → AsSteps exec u x := by
    intro u v x h1 h2
    induction h2 with
    | refl => exact h1
    | step _ hs ih => exact .step ih hs
  have run : ∀ (v : AWorld S Q R) (d : ACall Q R), v.calls[i]? = some d → d.stage = .running →
      d.dropped = false → d.answered = false → ∃ w' x, AsSteps exec v w' ∧ AEv.returned i x ∈ w'.log := by
    intro v d h1 h2 h3 h4
    have hl : i < v.calls.length := (List.getElem?_eq_some_iff.1 h1).1
    obtain ⟨w', x, h5, h6⟩ := fin { v with state := (exec v.state d.req).1, calls := v.calls.set i { d with stage := .done (exec v.state d.req).2 }, log := v.log ++ [.effect i d.req] }
      { d with stage := .done (exec v.state d.req).2 } _ (by simp only [List.getElem?_set, hl, if_true]) rfl h3 h4
    exact ⟨w', x, trans (AsSteps.step .refl (.effect h1 h2)) h5, h6⟩
  cases hs : c.stage with
  | queued =>
    obtain ⟨w', x, h5, h6⟩ := run { w with calls := w.calls.set i { c with stage := .running } } { c with stage := .running }
      (by simp only [List.getElem?_set, hlt, if_true]) rfl hd ha
    exact ⟨w', x, trans (AsSteps.step .refl (.take hi hs)) h5, h6⟩
  | running => exact run w c hi hs hd ha
  | done r => exact fin w c r hi hs hd ha
  | cancelled => exact ⟨_, .join, AsSteps.step .refl (.refuse hi hs hd ha), by simp⟩

/-- **C85 (handles)**: every way to get a handle from a handle but `admin` keeps the runtime, whatever the caller runs
on. -/
theorem C85_runtime_kept_partial (d : Derive) (own : Nat) (caller : Option Nat) (h : d ≠ .afterAwait) :
    d.runtime own caller = some own := by
  cases d <;> first | rfl | exact absurd rfl h

/-- **C85 (violated: handles)**: `admin` gives a handle of the caller's runtime, and panics when the caller is not run
by Tokio, as `into_async_with_runtime` is there to allow. -/
theorem C85_violated_admin (own other : Nat) (h : own ≠ other) :
    Derive.afterAwait.runtime own (some other) ≠ some own ∧ Derive.afterAwait.runtime own none = none := by
  exact ⟨fun hx => h (Option.some.inj hx).symm, rfl⟩

/-! ## A call that was given up -/

/-- A register: `some n` writes `n`, `none` reads. -/
def register (s : Nat) : Option Nat → Nat × Option Nat
  | some n => (n, some n)
  | none => (s, some s)

/-- **C85 (violated: a call that was given up is over)**: a write whose future was dropped — after a timeout, say — is
carried out later: the caller reads the old value afterwards, makes another write that succeeds, and finds it
overwritten by the one given up. -/
theorem C85_violated_dropped :
    ∃ w, AsSteps register (AWorld.fresh 0) w ∧
      w.log = [.began 0 (some 1), .dropped 0, .began 1 none, .effect 1 none, .returned 1 (.ok 0), .began 2 (some 2),
        .effect 2 (some 2), .returned 2 (.ok 2), .effect 0 (some 1), .began 3 none, .effect 3 none, .returned 3 (.ok 1)] := by
  have e0 : AsSteps register (AWorld.fresh 0) _ := AsSteps.refl
  have e1 := AsSteps.step e0 (.spawn (some 1) 0)
  have e2 := AsSteps.step e1 (.drop (i := 0) (c := ⟨some 1, 0, .queued, false, false⟩) rfl rfl)
  have e3 := AsSteps.step e2 (.direct (r := 0) none 0 rfl)
  have e4 := AsSteps.step e3 (.direct (r := 2) (some 2) 0 rfl)
  have e5 := AsSteps.step e4 (.take (i := 0) (c := ⟨some 1, 0, .queued, true, false⟩) rfl rfl)
  have e6 := AsSteps.step e5 (.effect (i := 0) (c := ⟨some 1, 0, .running, true, false⟩) rfl rfl)
  have e7 := AsSteps.step e6 (.direct (r := 1) none 0 rfl)
  exact ⟨_, e7, rfl⟩

/-- **C85 (violated: a call that was given up happens)**: nor is it sure to be carried out — when the runtime is shut
down first, it never is. -/
theorem C85_violated_dropped_lost {w w' : AWorld S Q R} {exec : S → Q → S × Option R} {i : Nat} {c : ACall Q R}
    (hi : w.calls[i]? = some c) (hc : c.stage = .cancelled) (hs : AsSteps exec w w') :
    ∃ c', w'.calls[i]? = some c' ∧ c'.stage = .cancelled := by
  induction hs with
  | refl => exact ⟨c, hi, hc⟩
  | @step v v' _ hs ih =>
    obtain ⟨d, h1, h2⟩ := ih
    have keep : ∀ cs, Kept v.calls cs → ∃ c', cs[i]? = some c' ∧ c'.stage = .cancelled := by
      intro cs hk
      obtain ⟨d', h3, _, _, h4⟩ := hk i d h1
      exact ⟨d', h3, h4 h2⟩
    cases hs with
    | spawn q rt => exact keep _ (Kept.append _)
    | direct q rt he => exact keep _ (Kept.append _)
    | take hi hs => exact keep _ (Kept.set hi rfl (by simp [hs]) (by simp [hs]))
    | effect hi hs => exact keep _ (Kept.set hi rfl (by simp [hs]) (by simp [hs]))
    | answer hi hs hd ha => exact keep _ (Kept.set hi rfl (fun _ h => h) (fun h => h))
    | refuse hi hs hd ha => exact keep _ (Kept.set hi rfl (fun _ h => h) (fun h => h))
    | drop hi ha => exact keep _ (Kept.set hi rfl (fun _ h => h) (fun h => h))
    | shutdown rt => exact keep _ (Kept.stop rt)

/-- Such a call: made, given up, and the runtime shut down. -/
example : ∃ w, AsSteps register (AWorld.fresh 0) w ∧
    w.calls[0]? = some ⟨some 1, 0, .cancelled, true, false⟩ := by
  have e0 : AsSteps register (AWorld.fresh 0) _ := AsSteps.refl
  have e1 := AsSteps.step e0 (.spawn (some 1) 0)
  have e2 := AsSteps.step e1 (.drop (i := 0) (c := ⟨some 1, 0, .queued, false, false⟩) rfl rfl)
  have e3 := AsSteps.step e2 (.shutdown 0)
  exact ⟨_, e3, rfl⟩

/-- Two overlapping writes and a read after them, all answered: the hypotheses of the theorems. -/
example : ∃ w, AsSteps register (AWorld.fresh 0) w ∧
    w.log = [.began 0 (some 1), .began 1 (some 2), .effect 1 (some 2), .effect 0 (some 1), .returned 0 (.ok 1),
      .began 2 none, .effect 2 none, .returned 2 (.ok 1)] := by
  have e0 : AsSteps register (AWorld.fresh 0) _ := AsSteps.refl
  have e1 := AsSteps.step e0 (.spawn (some 1) 0)
  have e2 := AsSteps.step e1 (.spawn (some 2) 0)
  have e3 := AsSteps.step e2 (.take (i := 1) (c := ⟨some 2, 0, .queued, false, false⟩) rfl rfl)
  have e4 := AsSteps.step e3 (.take (i := 0) (c := ⟨some 1, 0, .queued, false, false⟩) rfl rfl)
  have e5 := AsSteps.step e4 (.effect (i := 1) (c := ⟨some 2, 0, .running, false, false⟩) rfl rfl)
  have e6 := AsSteps.step e5 (.effect (i := 0) (c := ⟨some 1, 0, .running, false, false⟩) rfl rfl)
  have e7 := AsSteps.step e6 (.answer (i := 0) (c := ⟨some 1, 0, .done (some 1), false, false⟩) rfl rfl rfl rfl)
  have e8 := AsSteps.step e7 (.direct (r := 1) none 0 rfl)
  exact ⟨_, e8, rfl⟩

end Bonsai.Asyn
