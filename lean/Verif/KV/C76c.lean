import Verif.KV.C76b

/-!
# C76: sets, locks and counters through the typed calls
-/
set_option linter.unusedSimpArgs false
set_option linter.unusedVariables false

namespace Bonsai.KV
open Bonsai Time

/-! ## Set -/

/-- Whether the builder's condition allows the write, given what a read would answer. -/
def allowed (check : Option Check) (held : Option (Value F64)) : Prop :=
  match check with
  | none => True
  | some .onlyIfPresent => held ≠ none
  | some .onlyIfVacant => held = none

theorem passes_iff (x : Option (Value F64 × Option Nat)) (c : Option Check) :
    Spec.passes x.isSome c = true ↔ allowed c (x.map (·.1)) := by
  rcases c with _ | _ | _ <;> rcases x with _ | x <;> simp [Spec.passes, allowed]

/-- What one set does, on the specification. -/
theorem set_spec (m : KvMap F64) (k : Bytes) (c : SetCommand F64) :
    (∀ e, c.value.validate = .error e → Spec.set m k c = (.error e, m)) ∧
    (∀ v, c.value.validate = .ok v → ¬ allowed c.check ((m k).map (·.1)) →
      Spec.set m k c = (.ok (.status .notChanged), m)) ∧
    (∀ v, c.value.validate = .ok v → allowed c.check ((m k).map (·.1)) →
      (Spec.set m k c).1 = .ok (if c.returnPrevious then .value ((m k).map (·.1))
        else .status (if (m k).isSome then .updated else .inserted)) ∧
      ∃ x, (Spec.set m k c).2 = Spec.put m k (some (c.value, x)) ∧
        (c.keepExisting = false → x = c.expiration) ∧
        (c.keepExisting = true → x = match m k with | some p => p.2 | none => c.expiration)) := by
  unfold Spec.set
  refine ⟨fun e he => ?_, fun v hv ha => ?_, fun v hv ha => ?_⟩
  · rw [he]
  · rw [hv]
    dsimp only
    rw [if_neg (by rw [passes_iff]; exact ha)]
  · have := validate_value_eq hv
    rw [hv]
    subst this
    dsimp only
    rw [if_pos ((passes_iff _ _).2 ha)]
    refine ⟨rfl, _, rfl, ?_, ?_⟩
    · intro hk; rw [hk]
    · intro hk; rw [hk]; rcases m k with _ | ⟨v, t⟩ <;> rfl

theorem execute_run {V : Type} (p : Pot V) {st : St F64} (hi : Inv st) (b : SetBuilder V) (ck : Clock)
    {v : Value F64} (hv : b.value.prepare p = .ok v) (prev : Bool) :
    b.request p prev = .ok ⟨b.handle.key b.key, .set ⟨v, b.expiration, b.keepExisting, b.check, prev⟩⟩ := by
  unfold SetBuilder.request
  rw [hv]

/-- **C76.** The status of a set says what happened: it was refused exactly when its condition forbids it, and
then a read answers what it answered before; otherwise `Inserted` means that the key was absent and `Updated`
that it was present.  A NaN is an error. -/
theorem C76_set_status {V : Type} (p : Pot V) {st : St F64} (hst : Reach st) (b : SetBuilder V) (ck : Clock)
    {v : Value F64} (hv : b.value.prepare p = .ok v) :
    ∃ held, reads st ck b.handle b.key = .ok held ∧
      (∀ e, v.validate = .error e → ((b.execute p).run st ck).1 = .err (.store e) ∧
        reads ((b.execute p).run st ck).2 ck b.handle b.key = .ok held) ∧
      (v.validate = .ok v → ¬ allowed b.check held → ((b.execute p).run st ck).1 = .ok .notChanged ∧
        reads ((b.execute p).run st ck).2 ck b.handle b.key = .ok held) ∧
      (v.validate = .ok v → allowed b.check held → ((b.execute p).run st ck).1 = .ok (if held = none then .inserted else .updated)) := by
  have hi := hst.inv
  have hq : (b.execute p).request = _ := execute_run p hi b ck hv false
  obtain ⟨r1, r2, r3⟩ := run_ok hi hq ck
  have hs := set_spec (Spec.expire ck.now st.look) (b.handle.key b.key)
    ⟨v, b.expiration, b.keepExisting, b.check, false⟩
  change (_ ∧ _ ∧ _) at hs
  have hp : ∀ c, Spec.perform st.look ck.now ⟨b.handle.key b.key, .set c⟩ =
    Spec.set (Spec.expire ck.now st.look) (b.handle.key b.key) c := fun c => rfl
  rw [hp] at r1 r2
  refine ⟨_, reads_eq hi ck _ _, ?_, ?_, ?_⟩
  · intro e he
    rw [hs.1 e he] at r1 r2
    refine ⟨r1, ?_⟩
    rw [reads_eq r3, r2, expire_expire _ (Nat.le_refl _)]
  · intro hvv ha
    rw [hs.2.1 v hvv ha] at r1 r2
    refine ⟨r1, ?_⟩
    rw [reads_eq r3, r2, expire_expire _ (Nat.le_refl _)]
  · intro hvv ha
    obtain ⟨h1, _⟩ := hs.2.2 v hvv ha
    rw [h1] at r1
    rw [r1]
    cases Spec.expire ck.now st.look (b.handle.key b.key) <;> rfl

/-- **C76.** `returning_previous` answers what a read would have answered just before, if the condition allows
the write, and nothing otherwise. -/
theorem C76_returning_previous {V : Type} (p : Pot V) {st : St F64} (hst : Reach st) (b : SetBuilder V)
    (ck : Clock) {v : Value F64} (hv : b.value.prepare p = .ok v) (hvv : v.validate = .ok v) :
    ∃ held, reads st ck b.handle b.key = .ok held ∧
      (allowed b.check held → ((b.returningPrevious p).run st ck).1 = .ok held) ∧
      (¬ allowed b.check held → ((b.returningPrevious p).run st ck).1 = .ok none) := by
  have hi := hst.inv
  have hq : (b.returningPrevious p).request = _ := execute_run p hi b ck hv true
  obtain ⟨r1, r2, r3⟩ := run_ok hi hq ck
  have hs := set_spec (Spec.expire ck.now st.look) (b.handle.key b.key)
    ⟨v, b.expiration, b.keepExisting, b.check, true⟩
  have hp : ∀ c, Spec.perform st.look ck.now ⟨b.handle.key b.key, .set c⟩ =
    Spec.set (Spec.expire ck.now st.look) (b.handle.key b.key) c := fun c => rfl
  rw [hp] at r1 r2
  refine ⟨_, reads_eq hi ck _ _, ?_, ?_⟩
  · intro ha
    rw [(hs.2.2 v hvv ha).1] at r1
    exact r1
  · intro ha
    rw [hs.2.1 v hvv ha] at r1
    exact r1

/-- **C76.** With `only_if_vacant`, `returning_previous` answers nothing whether or not the key was taken: it
cannot be used to take a lock. -/
theorem C76_vacant_returning_previous_tells_nothing {V : Type} (p : Pot V) {st : St F64} (hst : Reach st)
    (b : SetBuilder V) (ck : Clock) {v : Value F64} (hv : b.value.prepare p = .ok v)
    (hvv : v.validate = .ok v) : ((b.onlyIfVacant.returningPrevious p).run st ck).1 = .ok none := by
  obtain ⟨held, _, h2, h3⟩ := C76_returning_previous p hst b.onlyIfVacant ck hv hvv
  by_cases ha : allowed b.onlyIfVacant.check held
  · have e : held = none := ha
    rw [h2 ha, e]
  · exact h3 ha

/-- A key and its value survive events that do not write the key, until it expires. -/
theorem survives {st st' : St F64} (hi : Inv st) {k : Bytes} {v : Value F64} {x : Option Nat}
    (hk : st.look k = some (v, x)) {es : List (Event F64)} {as : List (Except Err (Output F64))}
    (hw : ∀ e ∈ es, ¬ Writes k e) (hx : ∀ t, x = some t → ∀ e ∈ es, ¬ Reaches t e) (r : Run st es as st') :
    st'.look k = some (v, x) := by
  rw [(run_refines hi r).2]
  obtain ⟨h1, h2, _, _⟩ := runEvents_unwritten k es hw st.look
  cases x with
  | none => exact h1 v hk
  | some t => exact h2 v t hk (hx t rfl)

theorem expire_live {m : KvMap F64} {k : Bytes} {v : Value F64} {x : Option Nat} (hk : m k = some (v, x))
    {now : Nat} (hx : ∀ t, x = some t → now < t) : Spec.expire now m k = some (v, x) := by
  unfold Spec.expire
  rw [hk]
  cases x with
  | none => rfl
  | some t =>
    have := hx t rfl
    dsimp only
    rw [if_neg (by omega)]

/-- What is stored after a set that was not refused. -/
theorem set_stores {V : Type} (p : Pot V) {st : St F64} (hi : Inv st) (b : SetBuilder V) (ck : Clock)
    {v : Value F64} (hv : b.value.prepare p = .ok v) {s : Status}
    (hok : ((b.execute p).run st ck).1 = .ok s) (hs : s ≠ .notChanged) :
    v.validate = .ok v ∧ Inv ((b.execute p).run st ck).2 ∧
    ∃ x, ((b.execute p).run st ck).2.look (b.handle.key b.key) = some (v, x) ∧
      (b.keepExisting = false → x = b.expiration) := by
  have hq : (b.execute p).request = _ := execute_run p hi b ck hv false
  obtain ⟨r1, r2, r3⟩ := run_ok hi hq ck
  have hspec := set_spec (Spec.expire ck.now st.look) (b.handle.key b.key)
    ⟨v, b.expiration, b.keepExisting, b.check, false⟩
  have hp : ∀ c, Spec.perform st.look ck.now ⟨b.handle.key b.key, .set c⟩ =
    Spec.set (Spec.expire ck.now st.look) (b.handle.key b.key) c := fun c => rfl
  rw [hp] at r1 r2
  rw [hok] at r1
  cases hvv : v.validate with
  | error e => rw [hspec.1 e hvv] at r1; cases r1
  | ok w =>
    have hw := validate_value_eq hvv
    subst hw
    by_cases ha : allowed b.check ((Spec.expire ck.now st.look (b.handle.key b.key)).map (·.1))
    · obtain ⟨_, x, h2, h3, _⟩ := hspec.2.2 _ hvv ha
      refine ⟨rfl, r3, x, ?_, h3⟩
      rw [r2, h2]
      simp [Spec.put]
    · rw [hspec.2.1 _ hvv ha] at r1
      exact absurd (by cases r1; rfl) hs

/-- **C76.** After a set that was not refused, a read answers the value that was set, as long as no other
command writes the key and its expiration has not passed. -/
theorem C76_set_then_get {V : Type} (p : Pot V) {st st' : St F64} (hst : Reach st) (b : SetBuilder V)
    (ck ck' : Clock) {v : Value F64} (hv : b.value.prepare p = .ok v) {s : Status}
    (hok : ((b.execute p).run st ck).1 = .ok s) (hs : s ≠ .notChanged) (hk : b.keepExisting = false)
    {es : List (Event F64)} {as : List (Except Err (Output F64))}
    (r : Run ((b.execute p).run st ck).2 es as st') (hw : ∀ e ∈ es, ¬ Writes (b.handle.key b.key) e)
    (hx : ∀ t, b.expiration = some t → (∀ e ∈ es, ¬ Reaches t e) ∧ ck'.now < t) (delete : Bool) :
    ((getKey b.handle b.key delete).run st' ck').1 = .ok (some v) := by
  obtain ⟨_, hi, x, h1, h2⟩ := set_stores p hst.inv b ck hv hok hs
  have hx' := h2 hk
  subst hx'
  have h3 := survives hi h1 hw (fun t ht => (hx t ht).1) r
  have hi' := run_inv hi r
  rw [(run_ok hi' (c := getKey b.handle b.key delete) rfl ck').1]
  show Outcome.ok ((Spec.expire ck'.now st'.look (b.handle.key b.key)).map (·.1)) = _
  rw [expire_live h3 (fun t ht => (hx t ht).2)]
  rfl

/-- **C76.** A value of any type comes back as it was set. -/
theorem C76_serialized_value_comes_back {V : Type} (p : Pot V) {st st' : St F64} (hst : Reach st)
    (h : Handle) (key : String) (x : V) (ck ck' : Clock) {s : Status}
    (hok : (((setKey h key (.serializable x)).execute p).run st ck).1 = .ok s)
    {es : List (Event F64)} {as : List (Except Err (Output F64))}
    (r : Run (((setKey h key (.serializable x)).execute p).run st ck).2 es as st')
    (hw : ∀ e ∈ es, ¬ Writes (h.key key) e) :
    (((getKey h key false).into p).run st' ck').1 = .ok (some x) := by
  cases he : p.enc x with
  | none =>
    have hq : ((setKey h key (.serializable x)).execute p).request = .error .serialization := by
      show SetBuilder.request p _ false = _
      unfold SetBuilder.request setKey PendingValue.prepare
      simp only [he]
    unfold Call.run at hok
    rw [hq] at hok
    cases hok
  | some bs =>
    have hv : (setKey h key (PendingValue.serializable x)).value.prepare p = .ok (.bytes bs) := by
      unfold setKey PendingValue.prepare
      simp only [he]
    have hs : s ≠ .notChanged := by
      rintro rfl
      obtain ⟨held, _, _, _, h4⟩ := C76_set_status p hst (setKey h key (PendingValue.serializable x)) ck hv
      rw [h4 rfl trivial] at hok
      simp only [Outcome.ok.injEq] at hok
      split at hok <;> cases hok
    have := C76_set_then_get p hst (setKey h key (.serializable x)) ck ck' hv hok hs rfl r hw
      (fun t ht => by cases ht) false
    show ((Call.convert (getKey h key false) (Value.deserialize p)).run st' ck').1 = _
    have key' : ∀ {α : Type} (c : Call (Option (Value F64))) (f : Value F64 → Except CallErr α) (v : Value F64)
        (y : α), (c.run st' ck').1 = .ok (some v) → f v = .ok y → ((c.convert f).run st' ck').1 = .ok (some y) := by
      intro α c f v y h1 h2
      unfold Call.run at h1 ⊢
      unfold Call.convert
      dsimp only
      cases hr : c.request with
      | error e => rw [hr] at h1; cases h1
      | ok op =>
        rw [hr] at h1
        dsimp only at h1 ⊢
        rw [h1]
        dsimp only
        rw [h2]
    exact key' _ _ _ _ this (by unfold Value.deserialize; simp only [p.rt x bs he])

/-! ## No call panics -/

/-- **C76.** On a local store no typed call panics: the answers have the kind the builders expect. -/
theorem C76_no_panic {V W : Type} [LawfulNum W] (p : Pot V) {st : St F64} (hst : Reach st) (ck : Clock)
    (b : SetBuilder V) (h : Handle) (key : String) (d inc sat : Bool) (a : W) :
    ((b.execute p).run st ck).1 ≠ .panic ∧ ((b.returningPrevious p).run st ck).1 ≠ .panic ∧
      ((getKey h key d).run st ck).1 ≠ .panic ∧ ((deleteKey h key).run st ck).1 ≠ .panic ∧
      ((changeKey h key inc a sat).run st ck).1 ≠ .panic := by
  have hi := hst.inv
  refine ⟨?_, ?_, ?_, ?_, ?_⟩
  · cases hv : b.value.prepare p with
    | error e =>
      have hq : (b.execute p).request = .error e := by
        show SetBuilder.request p b false = _
        unfold SetBuilder.request; rw [hv]
      unfold Call.run
      rw [hq]
      exact fun h => by cases h
    | ok v =>
      obtain ⟨held, _, h1, h2, h3⟩ := C76_set_status p hst b ck hv
      cases hvv : v.validate with
      | error e => rw [(h1 e hvv).1]; exact fun h => by cases h
      | ok w =>
        have := validate_value_eq hvv
        subst this
        by_cases ha : allowed b.check held
        · rw [h3 hvv ha]; exact fun h => by cases h
        · rw [(h2 hvv ha).1]; exact fun h => by cases h
  · cases hv : b.value.prepare p with
    | error e =>
      have hq : (b.returningPrevious p).request = .error e := by
        show SetBuilder.request p b true = _
        unfold SetBuilder.request; rw [hv]
      unfold Call.run
      rw [hq]
      exact fun h => by cases h
    | ok v =>
      cases hvv : v.validate with
      | error e =>
        have hq : (b.returningPrevious p).request = _ := execute_run p hi b ck hv true
        obtain ⟨r1, _, _⟩ := run_ok hi hq ck
        have hs := (set_spec (Spec.expire ck.now st.look) (b.handle.key b.key)
          ⟨v, b.expiration, b.keepExisting, b.check, true⟩).1 e hvv
        have hp : ∀ c, Spec.perform st.look ck.now ⟨b.handle.key b.key, .set c⟩ =
          Spec.set (Spec.expire ck.now st.look) (b.handle.key b.key) c := fun c => rfl
        rw [hp, hs] at r1
        rw [r1]
        exact fun h => by cases h
      | ok w =>
        have := validate_value_eq hvv
        subst this
        obtain ⟨held, _, h1, h2⟩ := C76_returning_previous p hst b ck hv hvv
        by_cases ha : allowed b.check held
        · rw [h1 ha]; exact fun h => by cases h
        · rw [h2 ha]; exact fun h => by cases h
  · rw [(run_ok hi (c := getKey h key d) rfl ck).1]
    exact fun h => by cases h
  · rw [(run_ok hi (c := deleteKey h key) rfl ck).1]
    exact fun h => by cases h
  · obtain ⟨held, _, h1, h2⟩ := C76_change_answers hst ck h key inc a sat
    cases hn : heldNumber held with
    | none => rw [(h1 hn).1]; exact fun h => by cases h
    | some n =>
      rcases h2 n hn with ⟨v, hv, _⟩ | ⟨_, hv, _⟩
      · rw [hv]; exact fun h => by cases h
      · rw [hv]; exact fun h => by cases h

end Bonsai.KV
