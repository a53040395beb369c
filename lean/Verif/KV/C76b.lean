import Verif.KV.C76

/-!
# C76: what the typed calls answer

Everything below is stated about calls on a store in any state it can reach, and about what calls answer; what
happens between two calls is any execution (`Run`) of other operations, expiry passes, writes, failures and
shutdowns.
-/
set_option linter.unusedSimpArgs false
set_option linter.unusedVariables false

namespace Bonsai.KV
open Bonsai Time

/-- A state of a key-value store that was created empty. -/
def Reach (st : St F64) : Prop :=
  ∃ p t0 log es as, Run (St.new p t0 (.empty : OMap (Entry F64)) log) es as st

theorem Reach.inv {st : St F64} (h : Reach st) : Inv st := by
  obtain ⟨p, t0, log, es, as, r⟩ := h
  exact run_inv (inv_new p t0 log) r

theorem Run.append {st st' st'' : St F64} {es fs : List (Event F64)} {as bs : List (Except Err (Output F64))}
    (r : Run st es as st') (s : Run st' fs bs st'') : Run st (es ++ fs) (as ++ bs) st'' := by
  induction r with
  | nil => exact s
  | cons h r ih => rw [List.append_assoc]; exact .cons h (ih s)

theorem Reach.run {st st' : St F64} {es : List (Event F64)} {as : List (Except Err (Output F64))}
    (h : Reach st) (r : Run st es as st') : Reach st' := by
  obtain ⟨p, t0, log, fs, bs, r0⟩ := h
  exact ⟨p, t0, log, _, _, r0.append r⟩

/-- Executing a call is an execution. -/
theorem Reach.call {α : Type} {st : St F64} (h : Reach st) (c : Call α) (ck : Clock) : Reach (c.run st ck).2 := by
  unfold Call.run
  cases hr : c.request with
  | error e => exact h
  | ok op => exact h.run (.cons (.op st ck op) (.nil _))

/-- What a plain read of a key would answer now. -/
def reads (st : St F64) (ck : Clock) (h : Handle) (key : String) : Outcome (Option (Value F64)) :=
  ((getKey h key false).run st ck).1

/-! ## Lemmas: calls on the specification -/

theorem run_ok {α : Type} {st : St F64} (hi : Inv st) {c : Call α} {op : KeyOp F64} (hc : c.request = .ok op)
    (ck : Clock) :
    (c.run st ck).1 = c.interpret (Spec.perform st.look ck.now op).1 ∧
      (c.run st ck).2.look = (Spec.perform st.look ck.now op).2 ∧ Inv (c.run st ck).2 := by
  obtain ⟨h1, h2, h3⟩ := perform_ok hi ck op
  unfold Call.run
  rw [hc]
  exact ⟨congrArg c.interpret h1, h2, h3⟩

theorem reads_eq {st : St F64} (hi : Inv st) (ck : Clock) (h : Handle) (key : String) :
    reads st ck h key = .ok ((Spec.expire ck.now st.look (h.key key)).map (·.1)) := by
  unfold reads
  rw [(run_ok hi (c := getKey h key false) rfl ck).1]
  rfl

/-! ## No call panics -/

theorem validate_value_eq {v w : Value F64} (h : v.validate = .ok w) : w = v := by
  cases v with
  | bytes b => simp only [Value.validate, Except.ok.injEq] at h; exact h.symm
  | numeric n =>
    simp only [Value.validate] at h
    cases n with
    | integer i => simp only [Numeric.validate, Except.map, Except.ok.injEq] at h; exact h.symm
    | unsigned i => simp only [Numeric.validate, Except.map, Except.ok.injEq] at h; exact h.symm
    | float f =>
      simp only [Numeric.validate] at h
      split at h
      · cases h
      · simp only [Except.map, Except.ok.injEq] at h; exact h.symm

theorem validate_num_eq {v w : Numeric F64} (h : v.validate = .ok w) : w = v := by
  cases v with
  | integer i => simp only [Numeric.validate, Except.ok.injEq] at h; exact h.symm
  | unsigned i => simp only [Numeric.validate, Except.ok.injEq] at h; exact h.symm
  | float f =>
    simp only [Numeric.validate] at h
    split at h
    · cases h
    · simp only [Except.ok.injEq] at h; exact h.symm

/-- `u64`, `i64` and `f64` get back a number of their own type. -/
class LawfulNum (V : Type) extends NumTy V where
  back : ∀ (n : Numeric F64) (a : V) (s : Bool),
    (∃ v : V, tryFrom (increment n (into a) s) = some v ∧ into v = increment n (into a) s) ∧
    (∃ v : V, tryFrom (decrement n (into a) s) = some v ∧ into v = decrement n (into a) s)

instance : LawfulNum Int64 := ⟨fun n a s => ⟨⟨_, rfl, rfl⟩, ⟨_, rfl, rfl⟩⟩⟩
instance : LawfulNum UInt64 := ⟨fun n a s => ⟨⟨_, rfl, rfl⟩, ⟨_, rfl, rfl⟩⟩⟩
instance : LawfulNum F64 := ⟨fun n a s => ⟨⟨_, rfl, rfl⟩, ⟨_, rfl, rfl⟩⟩⟩

/-- The number a key holds for an increment or decrement: an absent key counts as 0. -/
def heldNumber : Option (Value F64) → Option (Numeric F64)
  | none => some (.unsigned 0)
  | some (.numeric n) => some n
  | some (.bytes _) => none

/-- The number after an increment or decrement. -/
def changed (inc : Bool) (n a : Numeric F64) (s : Bool) : Numeric F64 :=
  if inc then increment n a s else decrement n a s

theorem numeric_spec (m : KvMap F64) (k : Bytes) (f : Numeric F64 → Numeric F64) :
    (heldNumber ((m k).map (·.1)) = none →
      (Spec.numeric m k f).1 = .error .notNumeric ∧ (Spec.numeric m k f).2 = m) ∧
    (∀ n, heldNumber ((m k).map (·.1)) = some n →
      ((f n).validate = .ok (f n) ∧ (Spec.numeric m k f).1 = .ok (.value (some (.numeric (f n)))) ∧
          (Spec.numeric m k f).2 k = some (.numeric (f n), (m k).bind (·.2))) ∨
      ((f n).validate = .error .notANumber ∧ (Spec.numeric m k f).1 = .error .notANumber ∧
          (Spec.numeric m k f).2 = m)) := by
  have err : ∀ n : Numeric F64, ∀ e, n.validate = .error e → e = .notANumber := by
    intro n e he
    cases n with
    | integer i => cases he
    | unsigned i => cases he
    | float f =>
      simp only [Numeric.validate] at he
      split at he
      · cases he; rfl
      · cases he
  unfold Spec.numeric
  rcases m k with _ | ⟨b | n, t⟩
  · refine ⟨fun h => (by cases h), fun n hn => ?_⟩
    simp only [heldNumber, Option.map_none, Option.some.injEq] at hn
    subst hn
    dsimp only
    cases hv : (f (.unsigned 0)).validate with
    | error e => exact .inr ⟨by rw [err _ _ hv], by rw [err _ _ hv], rfl⟩
    | ok r =>
      have := validate_num_eq hv
      subst this
      exact .inl ⟨rfl, rfl, by simp [Spec.put]⟩
  · exact ⟨fun _ => ⟨rfl, rfl⟩, fun n hn => (by simp [heldNumber] at hn)⟩
  · refine ⟨fun h => (by simp [heldNumber] at h), fun n' hn => ?_⟩
    simp only [heldNumber, Option.map_some, Option.some.injEq] at hn
    subst hn
    dsimp only
    cases hv : (f n).validate with
    | error e => exact .inr ⟨by rw [err _ _ hv], by rw [err _ _ hv], rfl⟩
    | ok r =>
      have := validate_num_eq hv
      subst this
      exact .inl ⟨rfl, rfl, by simp [Spec.put]⟩

theorem change_perform {V : Type} [LawfulNum V] (m : KvMap F64) (now : Nat) (k : Bytes) (inc : Bool) (a : V)
    (s : Bool) :
    Spec.perform m now ⟨k, if inc then .increment (NumTy.into a) s else .decrement (NumTy.into a) s⟩ =
      Spec.numeric (Spec.expire now m) k (fun n => changed inc n (NumTy.into a) s) := by
  cases inc <;> rfl

theorem lawful_back {V : Type} [LawfulNum V] (inc : Bool) (n : Numeric F64) (a : V) (s : Bool) :
    ∃ v : V, NumTy.tryFrom (changed inc n (NumTy.into a) s) = some v ∧
      NumTy.into v = changed inc n (NumTy.into a) s := by
  cases inc
  · exact (LawfulNum.back n a s).2
  · exact (LawfulNum.back n a s).1

/-- **C76.** Increments and decrements: an error (and no change) for a key that holds bytes; otherwise the
answer is the sum or difference, in the amount's own type, and a later read answers the same number — unless
it is NaN, which is an error and changes nothing. -/
theorem C76_change_answers {V : Type} [LawfulNum V] {st : St F64} (hst : Reach st) (ck : Clock) (h : Handle)
    (key : String) (inc : Bool) (a : V) (s : Bool) :
    ∃ held, reads st ck h key = .ok held ∧
      (heldNumber held = none → ((changeKey h key inc a s).run st ck).1 = .err (.store .notNumeric) ∧
        reads ((changeKey h key inc a s).run st ck).2 ck h key = .ok held) ∧
      (∀ n, heldNumber held = some n →
        (∃ v : V, ((changeKey h key inc a s).run st ck).1 = .ok v ∧
          NumTy.into v = changed inc n (NumTy.into a) s ∧
          reads ((changeKey h key inc a s).run st ck).2 ck h key = .ok (some (.numeric (NumTy.into v)))) ∨
        ((changed inc n (NumTy.into a) s).validate = .error .notANumber ∧
          ((changeKey h key inc a s).run st ck).1 = .err (.store .notANumber) ∧
          reads ((changeKey h key inc a s).run st ck).2 ck h key = .ok held)) := by
  have hi := hst.inv
  have hrun := run_ok hi (c := changeKey h key inc a s) rfl ck
  rw [change_perform] at hrun
  obtain ⟨r1, r2, r3⟩ := hrun
  refine ⟨_, reads_eq hi ck h key, ?_, ?_⟩
  · intro hn
    obtain ⟨s1, s2⟩ := (numeric_spec (Spec.expire ck.now st.look) (h.key key)
      (fun n => changed inc n (NumTy.into a) s)).1 hn
    refine ⟨by rw [r1, s1]; rfl, ?_⟩
    rw [reads_eq r3, r2, s2, expire_expire _ (Nat.le_refl _)]
  · intro n hn
    rcases (numeric_spec (Spec.expire ck.now st.look) (h.key key)
      (fun n => changed inc n (NumTy.into a) s)).2 n hn with ⟨s0, s1, s2⟩ | ⟨s0, s1, s2⟩
    · obtain ⟨v, hv1, hv2⟩ := lawful_back inc n a s
      refine .inl ⟨v, ?_, hv2, ?_⟩
      · rw [r1, s1]
        show (match (NumTy.tryFrom (changed inc n (NumTy.into a) s) : Option V) with
          | some v => Outcome.ok v | none => .panic) = _
        rw [hv1]
      · rw [reads_eq r3, r2, hv2]
        have : Spec.expire ck.now (Spec.numeric (Spec.expire ck.now st.look) (h.key key)
            (fun n => changed inc n (NumTy.into a) s)).2 (h.key key) =
            some (.numeric (changed inc n (NumTy.into a) s),
              (Spec.expire ck.now st.look (h.key key)).bind (·.2)) := by
          unfold Spec.expire at s2 ⊢
          rw [s2]
          rcases hlk : st.look (h.key key) with _ | ⟨v, _ | t⟩
          · rfl
          · rfl
          · dsimp only
            by_cases hle : t ≤ ck.now
            · simp only [hle, if_true]; rfl
            · simp only [hle, if_false, Option.bind_some]
        rw [this]; rfl
    · refine .inr ⟨s0, by rw [r1, s1]; rfl, ?_⟩
      rw [reads_eq r3, r2, s2, expire_expire _ (Nat.le_refl _)]

end Bonsai.KV
