import Verif.KV.C76c

/-!
# C76: locks, tickets, expirations and namespaces through the typed calls
-/
set_option linter.unusedSimpArgs false
set_option linter.unusedVariables false

namespace Bonsai.KV
open Bonsai Time

/-! ## Locks -/

/-- All the event may do to `k` is to read it, or to try to take it with `only_if_vacant`. -/
def Attempts (k : Bytes) : Event F64 → Prop
  | .op _ o => o.key = k → o.command = .get false ∨ ∃ c, o.command = .set c ∧ c.check = some .onlyIfVacant
  | _ => True

theorem attempts_keep {k : Bytes} {v : Value F64} {x : Option Nat} (es : List (Event F64))
    (ha : ∀ e ∈ es, Attempts k e) (hx : ∀ t, x = some t → ∀ e ∈ es, ¬ Reaches t e) (m : KvMap F64)
    (hk : m k = some (v, x)) : (Spec.runEvents m es).2 k = some (v, x) := by
  induction es generalizing m with
  | nil => exact hk
  | cons e es ih =>
    have ih' := ih (fun e he => ha e (by simp [he])) (fun t ht e he => hx t ht e (by simp [he]))
    have live : ∀ now, e.time = some now → Spec.expire now m k = some (v, x) := by
      intro now hn
      refine expire_live hk (fun t ht => ?_)
      have := hx t ht e (by simp)
      rcases Nat.lt_or_ge now t with h | h
      · exact h
      · exact absurd ⟨now, hn, h⟩ this
    cases e with
    | tick ck => exact ih' _ (live ck.now rfl)
    | write => exact ih' _ hk
    | fail => exact ih' _ hk
    | finish n => exact ih' _ hk
    | shutdown n => exact ih' _ hk
    | op ck o =>
      refine ih' _ ?_
      show (Spec.exec (Spec.expire ck.now m) o).2 k = _
      have hl := live ck.now rfl
      by_cases ho : o.key = k
      · have hat := ha (.op ck o) (by simp) ho
        rcases o with ⟨ok, oc⟩
        dsimp only at ho hat
        subst ho
        rcases hat with rfl | ⟨c, rfl, hc⟩
        · exact hl
        · show (Spec.set (Spec.expire ck.now m) ok c).2 ok = _
          have hs := set_spec (Spec.expire ck.now m) ok c
          cases hv : c.value.validate with
          | error e => rw [hs.1 e hv]; exact hl
          | ok w =>
            have hna : ¬ allowed c.check ((Spec.expire ck.now m ok).map (·.1)) := by
              rw [hl, hc]; intro h; cases h
            rw [hs.2.1 w hv hna]; exact hl
      · rw [exec_other_key _ _ (fun e => ho e.symm)]; exact hl

/-- **C76.** `only_if_vacant` is a lock: after one caller was told `Inserted`, as long as everybody else only
reads the key or tries to take it the same way, and the holder's expiration has not passed, every other attempt
is told `NotChanged` (or an error), and every read answers the holder's value — whatever else the store
does. -/
theorem C76_lock_excludes {V W : Type} (p : Pot V) (q : Pot W) {st st' : St F64} (hst : Reach st)
    (b : SetBuilder V) (c : SetBuilder W) (ck ck' : Clock) {v : Value F64}
    (hv : b.value.prepare p = .ok v) (hkeep : b.keepExisting = false)
    (hok : ((b.onlyIfVacant.execute p).run st ck).1 = .ok .inserted)
    (hsame : c.handle.key c.key = b.handle.key b.key)
    {es : List (Event F64)} {as : List (Except Err (Output F64))}
    (r : Run ((b.onlyIfVacant.execute p).run st ck).2 es as st')
    (ha : ∀ e ∈ es, Attempts (b.handle.key b.key) e)
    (hx : ∀ t, b.expiration = some t → (∀ e ∈ es, ¬ Reaches t e) ∧ ck'.now < t) :
    (∀ s, ((c.onlyIfVacant.execute q).run st' ck').1 = .ok s → s = .notChanged) ∧
      reads st' ck' b.handle b.key = .ok (some v) := by
  obtain ⟨_, hi, x, h1, h2⟩ := set_stores p hst.inv b.onlyIfVacant ck hv hok (by decide)
  have hx' : x = b.expiration := h2 hkeep
  subst hx'
  have h3 : st'.look (b.handle.key b.key) = some (v, b.expiration) := by
    rw [(run_refines hi r).2]
    exact attempts_keep es ha (fun t ht => (hx t ht).1) _ h1
  have hr : Reach st' := (hst.call (b.onlyIfVacant.execute p) ck).run r
  have hl := expire_live h3 (now := ck'.now) (fun t ht => (hx t ht).2)
  refine ⟨fun s hs => ?_, ?_⟩
  · cases hw : c.value.prepare q with
    | error e =>
      have hq : (c.onlyIfVacant.execute q).request = .error e := by
        show SetBuilder.request q c.onlyIfVacant false = _
        unfold SetBuilder.request SetBuilder.onlyIfVacant
        dsimp only
        rw [hw]
      unfold Call.run at hs
      rw [hq] at hs
      cases hs
    | ok w =>
      obtain ⟨held, k1, k2, k3, _⟩ := C76_set_status q hr c.onlyIfVacant ck' hw
      have hh : held = some v := by
        rw [reads_eq hr.inv] at k1
        have hsame' : c.onlyIfVacant.handle.key c.onlyIfVacant.key = b.handle.key b.key := hsame
        rw [hsame', hl] at k1
        simp only [Outcome.ok.injEq, Option.map_some] at k1
        exact k1.symm
      cases hvv : w.validate with
      | error e => rw [(k2 e hvv).1] at hs; cases hs
      | ok w' =>
        have := validate_value_eq hvv
        subst this
        have hna : ¬ allowed c.onlyIfVacant.check held := by rw [hh]; intro h; cases h
        rw [(k3 hvv hna).1] at hs
        cases hs
        rfl
  · rw [reads_eq hr.inv, hl]; rfl

/-- **C76.** After a key was deleted, with no other command on it in between, it can be taken again. -/
theorem C76_lock_released {W : Type} (q : Pot W) {st st' : St F64} (hst : Reach st)
    (c : SetBuilder W) (ck ck' : Clock) {s : Status}
    (hok : ((deleteKey c.handle c.key).run st ck).1 = .ok s)
    {es : List (Event F64)} {as : List (Except Err (Output F64))}
    (r : Run ((deleteKey c.handle c.key).run st ck).2 es as st')
    (hw : ∀ e ∈ es, ¬ Writes (c.handle.key c.key) e) {w : Value F64} (hp : c.value.prepare q = .ok w)
    (hv : w.validate = .ok w) :
    ((c.onlyIfVacant.execute q).run st' ck').1 = .ok .inserted := by
  obtain ⟨_, r2, r3⟩ := run_ok hst.inv (c := deleteKey c.handle c.key) rfl ck
  have h1 : ((deleteKey c.handle c.key).run st ck).2.look (c.handle.key c.key) = none := by
    rw [r2]
    show Spec.put _ _ none _ = none
    simp [Spec.put]
  have h2 : st'.look (c.handle.key c.key) = none := by
    rw [(run_refines r3 r).2]
    exact (runEvents_unwritten _ es hw _).2.2.2 h1
  have hr : Reach st' := (hst.call _ ck).run r
  obtain ⟨held, k1, _, _, k4⟩ := C76_set_status q hr c.onlyIfVacant ck' hp
  have hh : held = none := by
    rw [reads_eq hr.inv] at k1
    have : Spec.expire ck'.now st'.look (c.handle.key c.key) = none := by unfold Spec.expire; rw [h2]
    have e : c.onlyIfVacant.handle.key c.onlyIfVacant.key = c.handle.key c.key := rfl
    rw [e, this] at k1
    simp only [Outcome.ok.injEq, Option.map_none] at k1
    exact k1.symm
  rw [k4 hv hh]
  simp [hh]

/-! ## Tickets: no increment is lost -/

/-- The event increments `k` by one. -/
def isTicket (k : Bytes) : Event F64 → Bool
  | .op _ ⟨k', .increment (.unsigned 1) true⟩ => k' == k
  | _ => false

/-- All the event may do to `k` is to read it or to increment it by one. -/
def Counts (k : Bytes) : Event F64 → Prop
  | .op _ o => o.key = k → o.command = .get false ∨ o.command = .increment (.unsigned 1) true
  | _ => True

/-- The key holds the unsigned number `n` without expiration, or is absent and `n = 0`. -/
def HoldsCount (m : KvMap F64) (k : Bytes) (n : Nat) : Prop :=
  (m k = none ∧ n = 0) ∨ ∃ u : UInt64, m k = some (.numeric (.unsigned u), none) ∧ u.toNat = n

theorem holds_expire {m : KvMap F64} {k : Bytes} {n : Nat} (h : HoldsCount m k n) (now : Nat) :
    HoldsCount (Spec.expire now m) k n := by
  rcases h with ⟨h, h0⟩ | ⟨u, h, h0⟩
  · exact .inl ⟨by unfold Spec.expire; rw [h], h0⟩
  · exact .inr ⟨u, by unfold Spec.expire; rw [h], h0⟩

theorem incr_one (u : UInt64) (h : u.toNat + 1 < 2 ^ 64) :
    ∃ w : UInt64, increment (.unsigned u : Numeric F64) (.unsigned 1) true = .unsigned w ∧
      w.toNat = u.toNat + 1 := by
  refine ⟨satU64 (u.toNat + (1 : UInt64).toNat), rfl, ?_⟩
  have e : ((1 : UInt64).toNat : Int) = 1 := rfl
  have := satU64_inRange (x := (u.toNat : Int) + (1 : UInt64).toNat) (by omega) (by rw [e]; omega)
  rw [e] at this ⊢
  omega

theorem numeric_ticket {m : KvMap F64} {k : Bytes} {n : Nat} (h : HoldsCount m k n) (hn : n + 1 < 2 ^ 64) :
    ∃ w : UInt64, w.toNat = n + 1 ∧
      (Spec.numeric m k (fun x => increment x (.unsigned 1) true)).1 = .ok (.value (some (.numeric (.unsigned w)))) ∧
      HoldsCount (Spec.numeric m k (fun x => increment x (.unsigned 1) true)).2 k (n + 1) := by
  rcases h with ⟨h, h0⟩ | ⟨u, h, h0⟩
  · obtain ⟨w, h1, h2⟩ := incr_one 0 (by decide)
    have e0 : (0 : UInt64).toNat = 0 := rfl
    have hw : w.toNat = n + 1 := by omega
    refine ⟨w, hw, ?_, .inr ⟨w, ?_, hw⟩⟩ <;> unfold Spec.numeric <;> rw [h] <;> dsimp only <;> rw [h1]
    · rfl
    · simp [Numeric.validate, Spec.put]
  · obtain ⟨w, h1, h2⟩ := incr_one u (by omega)
    have hw : w.toNat = n + 1 := by omega
    refine ⟨w, hw, ?_, .inr ⟨w, ?_, hw⟩⟩ <;> unfold Spec.numeric <;> rw [h] <;> dsimp only <;> rw [h1]
    · rfl
    · simp [Numeric.validate, Spec.put]

theorem counts_run {k : Bytes} (es : List (Event F64)) (hc : ∀ e ∈ es, Counts k e) (m : KvMap F64) (n : Nat)
    (h : HoldsCount m k n) (hn : n + es.countP (isTicket k) < 2 ^ 64) :
    HoldsCount (Spec.runEvents m es).2 k (n + es.countP (isTicket k)) := by
  induction es generalizing m n with
  | nil => exact h
  | cons e es ih =>
    have ih' := fun m n => ih (fun e he => hc e (by simp [he])) m n
    by_cases ht : isTicket k e = true
    · rw [List.countP_cons_of_pos ht] at hn ⊢
      have : n + (es.countP (isTicket k) + 1) = (n + 1) + es.countP (isTicket k) := by omega
      rw [this] at hn ⊢
      cases e with
      | op ck o =>
        rcases o with ⟨k', c⟩
        have hkc : k' = k ∧ c = .increment (.unsigned 1) true := by
          unfold isTicket at ht
          split at ht
          · rename_i heq
            cases heq
            exact ⟨by simpa using ht, rfl⟩
          · cases ht
        obtain ⟨rfl, rfl⟩ := hkc
        obtain ⟨_, _, _, h4⟩ := numeric_ticket (holds_expire h ck.now) (by omega)
        exact ih' _ _ h4 hn
      | tick ck => cases ht
      | write => cases ht
      | fail => cases ht
      | finish n => cases ht
      | shutdown n => cases ht
    · have ht' : isTicket k e = false := by simpa using ht
      rw [List.countP_cons_of_neg (by rw [ht']; decide)] at hn ⊢
      cases e with
      | op ck o =>
        refine ih' _ _ ?_ hn
        have he := holds_expire h ck.now
        show HoldsCount (Spec.exec (Spec.expire ck.now m) o).2 k n
        by_cases ho : o.key = k
        · rcases o with ⟨k', c⟩
          dsimp only at ho
          subst ho
          rcases hc (.op ck ⟨k', c⟩) (by simp) rfl with h' | h'
          · dsimp only at h'; subst h'; exact he
          · dsimp only at h'; subst h'
            simp [isTicket] at ht'
        · unfold HoldsCount
          rw [exec_other_key _ _ (fun e => ho e.symm)]
          exact he
      | tick ck => exact ih' _ _ (holds_expire h ck.now) hn
      | write => exact ih' _ _ h hn
      | fail => exact ih' _ _ h hn
      | finish n => exact ih' _ _ h hn
      | shutdown n => exact ih' _ _ h hn

theorem ticket_answer {st : St F64} (hi : Inv st) {h : Handle} {key : String} {n : Nat}
    (hn : HoldsCount st.look (h.key key) n) (hlt : n + 1 < 2 ^ 64) (ck : Clock) :
    ∃ w : UInt64, ((changeKey h key true (1 : UInt64)).run st ck).1 = .ok w ∧ w.toNat = n + 1 := by
  obtain ⟨w, h1, h2, _⟩ := numeric_ticket (holds_expire hn ck.now) hlt
  refine ⟨w, ?_, h1⟩
  rw [(run_ok hi (c := changeKey h key true (1 : UInt64)) rfl ck).1]
  have : (Spec.perform st.look ck.now ⟨h.key key, if true = true then .increment (NumTy.into (1 : UInt64)) true
      else .decrement (NumTy.into (1 : UInt64)) true⟩).1 = .ok (.value (some (.numeric (.unsigned w)))) := h2
  rw [this]
  rfl

/-- **C76.** No increment is lost and no ticket is given twice: in a new store in which `key` is only read and
incremented by one, by any number of callers, `increment_key_by(key, 1_u64)` answers one more than the number of
increments before it. -/
theorem C76_tickets (p : Persistence) (t0 : Nat) (log : List (List (Bytes × Bool))) {st : St F64}
    {es : List (Event F64)} {as : List (Except Err (Output F64))}
    (r : Run (St.new p t0 (.empty : OMap (Entry F64)) log) es as st) (h : Handle) (key : String)
    (hc : ∀ e ∈ es, Counts (h.key key) e) (hn : es.countP (isTicket (h.key key)) + 1 < 2 ^ 64) (ck : Clock) :
    ∃ w : UInt64, ((changeKey h key true (1 : UInt64)).run st ck).1 = .ok w ∧
      w.toNat = es.countP (isTicket (h.key key)) + 1 := by
  have h0 : HoldsCount (St.new p t0 (.empty : OMap (Entry F64)) log).look (h.key key) 0 := .inl ⟨rfl, rfl⟩
  have h1 := counts_run es hc _ 0 h0 (by omega)
  rw [← (run_refines (inv_new p t0 log) r).2, Nat.zero_add] at h1
  exact ticket_answer (run_inv (inv_new p t0 log) r) h1 hn ck

/-- **C76.** Likewise from a counter that was set with `set_numeric_key`, in any store. -/
theorem C76_tickets_after_set {V : Type} (p : Pot V) {st st' : St F64} (hst : Reach st) (h : Handle)
    (key : String) (n : UInt64) (ck ck' : Clock)
    {es : List (Event F64)} {as : List (Except Err (Output F64))}
    (r : Run (((setKey (V := V) h key (.numeric (.unsigned n))).execute p).run st ck).2 es as st')
    (hc : ∀ e ∈ es, Counts (h.key key) e)
    (hn : n.toNat + es.countP (isTicket (h.key key)) + 1 < 2 ^ 64) :
    ∃ w : UInt64, ((changeKey h key true (1 : UInt64)).run st' ck').1 = .ok w ∧
      w.toNat = n.toNat + es.countP (isTicket (h.key key)) + 1 := by
  obtain ⟨held, _, _, _, h4⟩ := C76_set_status p hst (setKey (V := V) h key (.numeric (.unsigned n))) ck rfl
  have hok := h4 rfl trivial
  obtain ⟨_, hi, x, h1, h2⟩ := set_stores p hst.inv (setKey (V := V) h key (.numeric (.unsigned n))) ck rfl hok
    (by split <;> decide)
  have hx : x = none := h2 rfl
  subst hx
  have h0 : HoldsCount (((setKey (V := V) h key (.numeric (.unsigned n))).execute p).run st ck).2.look
      (h.key key) n.toNat := .inr ⟨n, h1, rfl⟩
  have h3 := counts_run es hc _ _ h0 (by omega)
  rw [← (run_refines hi r).2] at h3
  exact ticket_answer (run_inv hi r) h3 hn ck'

/-! ## Expirations -/

theorem expireIn_aux {V : Type} (b : SetBuilder V) (now n e : Nat) (h : now + n < e) :
    (((if (now : Int) + (n : Nat) < (e : Nat) then Res.ok ((now : Int) + (n : Nat)) else .panic).bind
      timestampFrom).map fun t => { b with expiration := some t }) =
      .ok { b with expiration := some (now + n) } := by
  have h1 : (now : Int) + n < e := by omega
  have h2 : ¬ (now : Int) + n < 0 := by omega
  have h3 : ((now : Int) + n).toNat = now + n := by omega
  simp only [h1, if_true, Res.bind, timestampFrom, h2, if_false, Res.map, h3]

/-- **C76.** `expire_in` sets the expiration to exactly that long from now, when that is a time the platform
can represent. -/
theorem C76_expire_in_partial {V : Type} (b : SetBuilder V) (now : Nat) (d : Dur)
    (h : now + d.total < systemTimeEnd) :
    b.expireIn now d = .ok { b with expiration := some (now + d.total) } := by
  unfold SetBuilder.expireIn systemTimeAdd
  exact expireIn_aux b now d.total systemTimeEnd h

theorem expireIn_panic {V : Type} (b : SetBuilder V) (now n e : Nat) (h : e ≤ n) :
    (((if (now : Int) + (n : Nat) < (e : Nat) then Res.ok ((now : Int) + (n : Nat)) else .panic).bind
      timestampFrom).map fun t => { b with expiration := some t }) = .panic := by
  have h1 : ¬ (now : Int) + n < e := by omega
  simp only [h1, if_false, Res.bind, Res.map]

/-- **C76 violated.** Otherwise `expire_in` panics: for example with `Duration::MAX`, at any time. -/
theorem C76_violated_expire_in_panics {V : Type} (b : SetBuilder V) (now : Nat) :
    b.expireIn now ⟨2 ^ 64 - 1, 999999999⟩ = .panic := by
  have h : systemTimeEnd ≤ (⟨2 ^ 64 - 1, 999999999⟩ : Dur).total := by
    unfold systemTimeEnd Dur.total
    decide
  unfold SetBuilder.expireIn systemTimeAdd
  exact expireIn_panic b now _ _ h

/-- **C76.** `expire_at` sets the expiration to that time, from 1970 on. -/
theorem C76_expire_at_partial {V : Type} (b : SetBuilder V) (t : Nat) :
    b.expireAt t = .ok { b with expiration := some t } := by
  unfold SetBuilder.expireAt timestampFrom
  rw [if_neg (by omega)]
  rfl

/-- **C76 violated.** `expire_at` a time before 1970 panics instead of expiring the key. -/
theorem C76_violated_expire_at_panics {V : Type} (b : SetBuilder V) (t : Int) (h : t < 0) :
    b.expireAt t = .panic := by
  unfold SetBuilder.expireAt timestampFrom
  rw [if_pos h]
  rfl

end Bonsai.KV
