import Verif.KV.System
import Verif.Names.Namespaces

/-!
# C37: the key-value store behaves like a map.  C38: keys expire exactly at their expiration.
-/
set_option linter.unusedSimpArgs false
set_option linter.unusedSectionVars false

namespace Bonsai.KV
open Bonsai

variable {F : Type} [FloatOps F]

/-- The time at which an event can expire keys: its clock reading. -/
def Event.time : Event F → Option Nat
  | .op ck _ => some ck.now
  | .tick ck => some ck.now
  | _ => none

/-- The clock readings of an execution never go backwards. -/
def Forward (es : List (Event F)) : Prop := (es.filterMap Event.time).Pairwise (· ≤ ·)

/-- The operations of an execution with their times. -/
def operations (es : List (Event F)) : List (Nat × KeyOp F) :=
  es.filterMap fun | .op ck o => some (ck.now, o) | _ => none

/-- The specification run over operations and expiry passes; every other event is invisible. -/
def Spec.runEvents (m : KvMap F) : List (Event F) → List (Except Err (Output F)) × KvMap F
  | [] => ([], m)
  | .op ck o :: r =>
    let p := Spec.perform m ck.now o
    let q := Spec.runEvents p.2 r
    (p.1 :: q.1, q.2)
  | .tick ck :: r => Spec.runEvents (Spec.expire ck.now m) r
  | _ :: r => Spec.runEvents m r

theorem run_refines {st st' : St F} {es : List (Event F)} {as : List (Except Err (Output F))}
    (h : Inv st) (r : Run st es as st') :
    as = (Spec.runEvents st.look es).1 ∧ st'.look = (Spec.runEvents st.look es).2 := by
  induction r with
  | nil => exact ⟨rfl, rfl⟩
  | @cons st st' st'' e a es as s r ih =>
    have hl := step_look h s
    obtain ⟨i1, i2⟩ := ih (step_inv h s)
    cases s with
    | op ck o =>
      have ha := (perform_ok h ck o).1
      rw [hl] at i1 i2
      simp only [Spec.runEvents, Option.toList_some, List.cons_append, List.nil_append]
      exact ⟨by rw [i1, ha]; rfl, i2⟩
    | tick ck => rw [hl] at i1 i2; exact ⟨i1, i2⟩
    | write b hw hb => rw [hl] at i1 i2; exact ⟨i1, i2⟩
    | fail hw => rw [hl] at i1 i2; exact ⟨i1, i2⟩
    | finish now hw => rw [hl] at i1 i2; exact ⟨i1, i2⟩
    | shutdown now => rw [hl] at i1 i2; exact ⟨i1, i2⟩

theorem look_new (p : Persistence) (now : Nat) (log : List (List (Bytes × Bool))) :
    (St.new p now (.empty : OMap (Entry F)) log).look = Spec.empty := rfl

/-- **C37.** Whatever the persistence settings and however staging, writing, failing and finishing of
batches are interleaved with the operations, the answers are those of a map with expirations, with
expiry passes at the times the background worker ran.  Nothing is assumed about the clock. -/
theorem C37_answers_are_those_of_a_map (p : Persistence) (t0 : Nat) (log : List (List (Bytes × Bool)))
    {es : List (Event F)} {as : List (Except Err (Output F))} {st : St F}
    (r : Run (St.new p t0 .empty log) es as st) :
    as = (Spec.runEvents Spec.empty es).1 :=
  (run_refines (inv_new p t0 log) r).1

theorem expire_expire (m : KvMap F) {t u : Nat} (h : t ≤ u) :
    Spec.expire u (Spec.expire t m) = Spec.expire u m := by
  funext k
  simp only [Spec.expire]
  rcases hm : m k with _ | ⟨v, _ | x⟩
  · rfl
  · rfl
  · simp only
    by_cases hx : x ≤ t
    · have : x ≤ u := by omega
      simp [hx, this]
    · simp [hx]

/-- Two contents that a clock reading of at least `t` cannot tell apart give the same answers. -/
theorem run_congr (es : List (Event F)) (hf : Forward es) (t : Nat) (m m' : KvMap F)
    (ht : ∀ x ∈ es.filterMap Event.time, t ≤ x)
    (h : ∀ u, t ≤ u → Spec.expire u m = Spec.expire u m') :
    (Spec.runEvents m es).1 = (Spec.run m' (operations es)).1 := by
  induction es generalizing t m m' with
  | nil => rfl
  | cons e es ih =>
    have skip : ∀ (e : Event F), e.time = none → (e :: es).filterMap Event.time = es.filterMap Event.time := by
      intro e he; simp [he]
    cases e with
    | op ck o =>
      have hlist : (Event.op ck o :: es).filterMap Event.time = ck.now :: es.filterMap Event.time := rfl
      rw [Forward, hlist] at hf
      rw [hlist] at ht
      obtain ⟨f1, f2⟩ := List.pairwise_cons.mp hf
      have hp : Spec.perform m ck.now o = Spec.perform m' ck.now o := by
        simp only [Spec.perform]; rw [h ck.now (ht _ (by simp))]
      have hops : operations (Event.op ck o :: es) = (ck.now, o) :: operations es := rfl
      rw [hops]
      simp only [Spec.runEvents, Spec.run]
      rw [hp, ih f2 ck.now _ _ (fun x hx => f1 x hx) (fun u _ => rfl)]
    | tick ck =>
      have hlist : (Event.tick (F := F) ck :: es).filterMap Event.time = ck.now :: es.filterMap Event.time := rfl
      rw [Forward, hlist] at hf
      rw [hlist] at ht
      obtain ⟨f1, f2⟩ := List.pairwise_cons.mp hf
      refine ih f2 ck.now _ _ (fun x hx => f1 x hx) ?_
      intro u hu
      rw [expire_expire m hu]
      exact h u (Nat.le_trans (ht _ (by simp)) hu)
    | write => exact ih hf t _ _ ht h
    | fail => exact ih hf t _ _ ht h
    | finish now => exact ih hf t _ _ ht h
    | shutdown now => exact ih hf t _ _ ht h

/-- **C37.** When the clock does not go backwards, the answers depend only on the operations and their
times: background persistence and the background worker are invisible. -/
theorem C37_background_work_is_invisible (p : Persistence) (t0 : Nat) (log : List (List (Bytes × Bool)))
    {es : List (Event F)} {as : List (Except Err (Output F))} {st : St F} (hf : Forward es)
    (r : Run (St.new p t0 .empty log) es as st) :
    as = (Spec.run Spec.empty (operations es)).1 := by
  rw [C37_answers_are_those_of_a_map p t0 log r]
  exact run_congr es hf 0 _ _ (fun _ _ => Nat.zero_le _) (fun _ _ => rfl)

/-- Every state can take every operation and every expiry pass: the theorems above are about all
operation sequences. -/
theorem C37_operations_always_possible (st : St F) (ops : List (Clock × KeyOp F)) :
    ∃ as st', Run st (ops.map fun o => .op o.1 o.2) as st' := by
  induction ops generalizing st with
  | nil => exact ⟨[], st, .nil st⟩
  | cons o ops ih =>
    obtain ⟨as, st', h⟩ := ih (st.perform o.1 o.2).2
    exact ⟨_, st', .cons (.op st o.1 o.2) h⟩

/-- The key-value half of C18 on whole executions: an operation on one key leaves every other key
unchanged (up to expiry). -/
theorem exec_other_key (m : KvMap F) (op : KeyOp F) {k : Bytes} (h : k ≠ op.key) :
    (Spec.exec m op).2 k = m k := by
  have hput : ∀ x, Spec.put m op.key x k = m k := by intro x; simp [Spec.put, h]
  rcases op with ⟨k', c⟩
  cases c with
  | set c =>
    simp only [Spec.exec, Spec.set]
    cases c.value.validate with
    | error e => rfl
    | ok v =>
      simp only
      split
      · exact hput _
      · rfl
  | get d =>
    cases d
    · rfl
    · exact hput _
  | delete => exact hput _
  | increment a s =>
    simp only [Spec.exec, Spec.numeric]
    rcases m k' with _ | ⟨b | n, t⟩
    · simp only
      cases (increment (.unsigned 0) a s).validate with
      | error e => rfl
      | ok v => exact hput _
    · rfl
    · simp only
      cases (increment n a s).validate with
      | error e => rfl
      | ok v => exact hput _
  | decrement a s =>
    simp only [Spec.exec, Spec.numeric]
    rcases m k' with _ | ⟨b | n, t⟩
    · simp only
      cases (decrement (.unsigned 0) a s).validate with
      | error e => rfl
      | ok v => exact hput _
    · rfl
    · simp only
      cases (decrement n a s).validate with
      | error e => rfl
      | ok v => exact hput _

/-! ## C38 -/

theorem run_append {st st' : St F} {es fs : List (Event F)} {as : List (Except Err (Output F))}
    (r : Run st (es ++ fs) as st') :
    ∃ as₁ as₂ mid, as = as₁ ++ as₂ ∧ Run st es as₁ mid ∧ Run mid fs as₂ st' := by
  induction es generalizing st as with
  | nil => exact ⟨[], as, st, rfl, .nil st, r⟩
  | cons e es ih =>
    cases r with
    | @cons _ stm _ _ a _ as' s r =>
      obtain ⟨as₁, as₂, mid, h1, h2, h3⟩ := ih r
      exact ⟨a.toList ++ as₁, as₂, mid, by rw [h1, List.append_assoc], .cons s h2, h3⟩

/-- The event is a command on `k` other than a plain read. -/
def Writes (k : Bytes) : Event F → Prop
  | .op _ ⟨_, .get false⟩ => False
  | .op _ o => o.key = k
  | _ => False

/-- The event's clock reading has reached `t`. -/
def Reaches (t : Nat) (e : Event F) : Prop := ∃ x, e.time = some x ∧ t ≤ x

theorem exec_unwritten (m : KvMap F) (ck : Clock) (op : KeyOp F) {k : Bytes}
    (h : ¬ Writes k (.op ck op)) : (Spec.exec m op).2 k = m k := by
  rcases op with ⟨k', c⟩
  by_cases hk : k = k'
  · subst hk
    cases c with
    | get d =>
      cases d
      · rfl
      · exact absurd rfl h
    | _ => exact absurd rfl h
  · exact exec_other_key m ⟨k', c⟩ hk

/-- What happens to a key that nobody writes. -/
theorem runEvents_unwritten (k : Bytes) (es : List (Event F)) (hw : ∀ e ∈ es, ¬ Writes k e)
    (m : KvMap F) :
    (∀ v, m k = some (v, none) → (Spec.runEvents m es).2 k = some (v, none)) ∧
    (∀ v t, m k = some (v, some t) → (∀ e ∈ es, ¬ Reaches t e) →
      (Spec.runEvents m es).2 k = some (v, some t)) ∧
    (∀ v t, m k = some (v, some t) → (∃ e ∈ es, Reaches t e) → (Spec.runEvents m es).2 k = none) ∧
    (m k = none → (Spec.runEvents m es).2 k = none) := by
  induction es generalizing m with
  | nil =>
    exact ⟨fun _ h => h, fun _ _ h _ => h, fun _ _ _ h => (by obtain ⟨e, he, _⟩ := h; simp at he), fun h => h⟩
  | cons e es ih =>
    have hes : ∀ e ∈ es, ¬ Writes k e := fun e he => hw e (by simp [he])
    -- an event with a clock reading `x` that acts on `k` exactly as `expire x`
    have timed : ∀ (x : Nat) (m' : KvMap F), e.time = some x → m' k = Spec.expire x m k →
        Spec.runEvents m (e :: es) = Spec.runEvents m' es ∨
          (Spec.runEvents m (e :: es)).2 = (Spec.runEvents m' es).2 →
        (∀ v, m k = some (v, none) → (Spec.runEvents m (e :: es)).2 k = some (v, none)) ∧
        (∀ v t, m k = some (v, some t) → (∀ e' ∈ e :: es, ¬ Reaches t e') →
          (Spec.runEvents m (e :: es)).2 k = some (v, some t)) ∧
        (∀ v t, m k = some (v, some t) → (∃ e' ∈ e :: es, Reaches t e') →
          (Spec.runEvents m (e :: es)).2 k = none) ∧
        (m k = none → (Spec.runEvents m (e :: es)).2 k = none) := by
      intro x m' hx hm' hrun
      have hrun : (Spec.runEvents m (e :: es)).2 = (Spec.runEvents m' es).2 := by
        rcases hrun with h | h
        · rw [h]
        · exact h
      obtain ⟨i1, i2, i3, i4⟩ := ih hes m'
      rw [hrun]
      refine ⟨?_, ?_, ?_, ?_⟩
      · intro v hv
        exact i1 v (by rw [hm']; simp [Spec.expire, hv])
      · intro v t hv hn
        have hlt : ¬ t ≤ x := fun hle => hn e (by simp) ⟨x, hx, hle⟩
        exact i2 v t (by rw [hm']; simp only [Spec.expire, hv]; simp [hlt]) (fun e' he' => hn e' (by simp [he']))
      · intro v t hv hex
        by_cases hle : t ≤ x
        · exact i4 (by rw [hm']; simp [Spec.expire, hv, hle])
        · refine i3 v t (by rw [hm']; simp [Spec.expire, hv, hle]) ?_
          obtain ⟨e', he', x', hx', hle'⟩ := hex
          simp only [List.mem_cons] at he'
          rcases he' with rfl | he'
          · rw [hx] at hx'; cases hx'; exact absurd hle' hle
          · exact ⟨e', he', x', hx', hle'⟩
      · intro hv
        exact i4 (by rw [hm']; simp [Spec.expire, hv])
    have silent : e.time = none → Spec.runEvents m (e :: es) = Spec.runEvents m es →
        (∀ v, m k = some (v, none) → (Spec.runEvents m (e :: es)).2 k = some (v, none)) ∧
        (∀ v t, m k = some (v, some t) → (∀ e' ∈ e :: es, ¬ Reaches t e') →
          (Spec.runEvents m (e :: es)).2 k = some (v, some t)) ∧
        (∀ v t, m k = some (v, some t) → (∃ e' ∈ e :: es, Reaches t e') →
          (Spec.runEvents m (e :: es)).2 k = none) ∧
        (m k = none → (Spec.runEvents m (e :: es)).2 k = none) := by
      intro ht hrun
      obtain ⟨i1, i2, i3, i4⟩ := ih hes m
      rw [hrun]
      refine ⟨i1, fun v t hv hn => i2 v t hv (fun e' he' => hn e' (by simp [he'])), ?_, i4⟩
      intro v t hv hex
      refine i3 v t hv ?_
      obtain ⟨e', he', x', hx', hle'⟩ := hex
      simp only [List.mem_cons] at he'
      rcases he' with rfl | he'
      · rw [ht] at hx'; cases hx'
      · exact ⟨e', he', x', hx', hle'⟩
    cases e with
    | op ck o =>
      exact timed ck.now (Spec.perform m ck.now o).2 rfl
        (exec_unwritten _ ck o (hw _ (by simp))) (.inr rfl)
    | tick ck => exact timed ck.now (Spec.expire ck.now m) rfl rfl (.inl rfl)
    | write => exact silent rfl rfl
    | fail => exact silent rfl rfl
    | finish now => exact silent rfl rfl
    | shutdown now => exact silent rfl rfl

/-- The answers of a run that ends with an operation end with that operation's answer. -/
theorem run_last {st st' : St F} {es : List (Event F)} {ck : Clock} {o : KeyOp F}
    {as : List (Except Err (Output F))} (h : Inv st) (r : Run st (es ++ [.op ck o]) as st') :
    as.getLast? = some (Spec.perform (Spec.runEvents st.look es).2 ck.now o).1 := by
  obtain ⟨as₁, as₂, mid, rfl, r1, r2⟩ := run_append r
  have hl := (run_refines h r1).2
  have hm := run_inv h r1
  cases r2 with
  | cons s r2 =>
    cases s with
    | op ck o =>
      cases r2
      rw [(perform_ok hm ck o).1, hl]
      simp

theorem runEvents_append (m : KvMap F) (es fs : List (Event F)) :
    (Spec.runEvents m (es ++ fs)).2 = (Spec.runEvents (Spec.runEvents m es).2 fs).2 := by
  induction es generalizing m with
  | nil => rfl
  | cons e es ih =>
    cases e with
    | op ck o => exact ih _
    | tick ck => exact ih _
    | write => exact ih _
    | fail => exact ih _
    | finish now => exact ih _
    | shutdown now => exact ih _

/-- A plain set of a valid value. -/
def plainSet (v : Value F) (expiration : Option Nat) : SetCommand F := ⟨v, expiration, false, none, false⟩

theorem after_plainSet (m : KvMap F) (ck : Clock) (k : Bytes) {v v' : Value F} (x : Option Nat)
    (hv : v.validate = .ok v') :
    (Spec.perform m ck.now ⟨k, .set (plainSet v x)⟩).2 k = some (v', x) := by
  simp [Spec.perform, Spec.exec, Spec.set, plainSet, hv, Spec.passes, Spec.put]

theorem perform_get (m : KvMap F) (now : Nat) (k : Bytes) :
    (Spec.perform m now ⟨k, .get false⟩).1 = .ok (.value ((Spec.expire now m k).map (·.1))) := rfl

/-- **C38.** Whatever happened before (`before`), after a key was set with expiration `t`, if nobody
writes the key again, then a read answers "absent" once a clock reading has reached `t` at any later
event, including the read itself. -/
theorem C38_expired_key_is_never_returned (p : Persistence) (t0 : Nat) (log : List (List (Bytes × Bool)))
    {before after : List (Event F)} {ck ck' : Clock} {k : Bytes} {v v' : Value F} {t : Nat}
    {as : List (Except Err (Output F))} {st : St F} (hv : v.validate = .ok v')
    (hw : ∀ e ∈ after, ¬ Writes k e)
    (hexp : (∃ e ∈ after, Reaches t e) ∨ t ≤ ck'.now)
    (r : Run (St.new p t0 .empty log)
      (before ++ [.op ck ⟨k, .set (plainSet v (some t))⟩] ++ after ++ [.op ck' ⟨k, .get false⟩]) as st) :
    as.getLast? = some (.ok (.value none)) := by
  rw [run_last (inv_new p t0 log) r, runEvents_append, runEvents_append]
  generalize (Spec.runEvents (St.new p t0 (.empty : OMap (Entry F)) log).look before).2 = m
  have hm := after_plainSet m ck k (some t) hv
  have hrun : (Spec.runEvents m [.op ck ⟨k, .set (plainSet v (some t))⟩]).2 =
    (Spec.perform m ck.now ⟨k, .set (plainSet v (some t))⟩).2 := rfl
  rw [hrun]
  obtain ⟨_, i2, i3, _⟩ := runEvents_unwritten k after hw (Spec.perform m ck.now ⟨k, .set (plainSet v (some t))⟩).2
  have key : Spec.expire ck'.now (Spec.runEvents (Spec.perform m ck.now ⟨k, .set (plainSet v (some t))⟩).2 after).2 k = none := by
    simp only [Spec.expire]
    by_cases hr : ∃ e ∈ after, Reaches t e
    · rw [i3 v' t hm hr]
    · have hn : ∀ e ∈ after, ¬ Reaches t e := fun e he hre => hr ⟨e, he, hre⟩
      rw [i2 v' t hm hn]
      rcases hexp with h | h
      · exact absurd h hr
      · simp [h]
  rw [perform_get, key]
  rfl

/-- **C38.** Before its expiration (or without one) a key is not removed: the read answers the value
last set.  The previous expiration, if any, has been replaced. -/
theorem C38_unexpired_key_is_returned (p : Persistence) (t0 : Nat) (log : List (List (Bytes × Bool)))
    {before after : List (Event F)} {ck ck' : Clock} {k : Bytes} {v v' : Value F} {x : Option Nat}
    {as : List (Except Err (Output F))} {st : St F} (hv : v.validate = .ok v')
    (hw : ∀ e ∈ after, ¬ Writes k e)
    (hexp : ∀ t, x = some t → (∀ e ∈ after, ¬ Reaches t e) ∧ ck'.now < t)
    (r : Run (St.new p t0 .empty log)
      (before ++ [.op ck ⟨k, .set (plainSet v x)⟩] ++ after ++ [.op ck' ⟨k, .get false⟩]) as st) :
    as.getLast? = some (.ok (.value (some v'))) := by
  rw [run_last (inv_new p t0 log) r, runEvents_append, runEvents_append]
  generalize (Spec.runEvents (St.new p t0 (.empty : OMap (Entry F)) log).look before).2 = m
  have hm := after_plainSet m ck k x hv
  have hrun : (Spec.runEvents m [.op ck ⟨k, .set (plainSet v x)⟩]).2 =
    (Spec.perform m ck.now ⟨k, .set (plainSet v x)⟩).2 := rfl
  rw [hrun]
  obtain ⟨i1, i2, _, _⟩ := runEvents_unwritten k after hw (Spec.perform m ck.now ⟨k, .set (plainSet v x)⟩).2
  have key : Spec.expire ck'.now (Spec.runEvents (Spec.perform m ck.now ⟨k, .set (plainSet v x)⟩).2 after).2 k
      = some (v', x) := by
    simp only [Spec.expire]
    cases x with
    | none => rw [i1 v' hm]
    | some t =>
      obtain ⟨h1, h2⟩ := hexp t rfl
      rw [i2 v' t hm h1]
      have : ¬ t ≤ ck'.now := by omega
      simp [this]
  rw [perform_get, key]
  rfl

/-- **C38.** A set that asks to keep the existing expiration leaves a present key its expiration `t`
(and ignores the new one), and so do increment and decrement: the key still expires at `t`. -/
theorem C38_kept_expiration_expires (p : Persistence) (t0 : Nat) (log : List (List (Bytes × Bool)))
    {before between after : List (Event F)} {ck ck₂ ck' : Clock} {k : Bytes} {v v' : Value F} {t : Nat}
    {c : Command F} {as : List (Except Err (Output F))} {st : St F} (hv : v.validate = .ok v')
    (hc : (∃ w x r, c = .set ⟨w, x, true, none, r⟩) ∨ (∃ a s, c = .increment a s) ∨ (∃ a s, c = .decrement a s))
    (hw : ∀ e ∈ between, ¬ Writes k e) (hw' : ∀ e ∈ after, ¬ Writes k e)
    (hlive : (∀ e ∈ between, ¬ Reaches t e) ∧ ck₂.now < t)
    (hexp : (∃ e ∈ after, Reaches t e) ∨ t ≤ ck'.now)
    (r : Run (St.new p t0 .empty log)
      (before ++ [.op ck ⟨k, .set (plainSet v (some t))⟩] ++ between ++ [.op ck₂ ⟨k, c⟩] ++ after ++
        [.op ck' ⟨k, .get false⟩]) as st) :
    as.getLast? = some (.ok (.value none)) := by
  rw [run_last (inv_new p t0 log) r, runEvents_append, runEvents_append, runEvents_append, runEvents_append]
  generalize (Spec.runEvents (St.new p t0 (.empty : OMap (Entry F)) log).look before).2 = m
  have hm : (Spec.runEvents m [.op ck ⟨k, .set (plainSet v (some t))⟩]).2 k = some (v', some t) :=
    after_plainSet m ck k (some t) hv
  generalize (Spec.runEvents m [.op ck ⟨k, .set (plainSet v (some t))⟩]).2 = m₁ at hm
  have hm₂ := (runEvents_unwritten k between hw m₁).2.1 v' t hm hlive.1
  generalize (Spec.runEvents m₁ between).2 = m₂ at hm₂
  have hx : Spec.expire ck₂.now m₂ k = some (v', some t) := by
    have : ¬ t ≤ ck₂.now := by omega
    simp [Spec.expire, hm₂, this]
  have hm₃ : ∃ u, (Spec.runEvents m₂ [.op ck₂ ⟨k, c⟩]).2 k = some (u, some t) := by
    show ∃ u, (Spec.exec (Spec.expire ck₂.now m₂) ⟨k, c⟩).2 k = some (u, some t)
    have hnum : ∀ f, ∃ u, (Spec.numeric (Spec.expire ck₂.now m₂) k f).2 k = some (u, some t) := by
      intro f
      simp only [Spec.numeric, hx]
      cases v' with
      | bytes b => exact ⟨_, hx⟩
      | numeric n =>
        simp only
        cases (f n).validate with
        | error e => exact ⟨_, hx⟩
        | ok r => exact ⟨.numeric r, by simp [Spec.put]⟩
    rcases hc with ⟨w, x, r, rfl⟩ | ⟨a, s, rfl⟩ | ⟨a, s, rfl⟩
    · simp only [Spec.exec, Spec.set]
      cases w.validate with
      | error e => exact ⟨_, hx⟩
      | ok w' =>
        simp only [Spec.passes, if_true, hx]
        exact ⟨w', by simp [Spec.put]⟩
    · exact hnum _
    · exact hnum _
  obtain ⟨u, hm₃⟩ := hm₃
  generalize (Spec.runEvents m₂ [.op ck₂ ⟨k, c⟩]).2 = m₃ at hm₃
  obtain ⟨_, i2, i3, _⟩ := runEvents_unwritten k after hw' m₃
  have key : Spec.expire ck'.now (Spec.runEvents m₃ after).2 k = none := by
    simp only [Spec.expire]
    by_cases hr : ∃ e ∈ after, Reaches t e
    · rw [i3 u t hm₃ hr]
    · rw [i2 u t hm₃ (fun e he hre => hr ⟨e, he, hre⟩)]
      rcases hexp with h | h
      · exact absurd h hr
      · simp [h]
  rw [perform_get, key]
  rfl

/-! ## Concrete executions -/

/-- A `FloatOps` for the examples, which store no floats. -/
instance : FloatOps Unit := ⟨fun _ _ => (), fun _ _ => (), fun _ => false, fun _ => 0, fun _ => 0, fun _ => (), fun _ => ()⟩

def exClock (n : Nat) : Clock := ⟨n, n, n⟩
def exKey : Bytes := [0, 107]
def exSet : Event Unit := .op (exClock 5) ⟨exKey, .set (plainSet (.bytes [1]) (some 10))⟩
def exGet (n : Nat) : Event Unit := .op (exClock n) ⟨exKey, .get false⟩

/-- Immediate persistence: the set stages a batch, which is written and finished between two reads;
the second read is at the expiration. -/
example : ∃ as st, Run (St.new (F := Unit) .immediate 0 .empty []) [exSet, exGet 7, .write, .finish 8, exGet 9, exGet 10] as st ∧
    as = [.ok (.status .inserted), .ok (.value (some (.bytes [1]))), .ok (.value (some (.bytes [1]))),
      .ok (.value none)] := by
  refine ⟨_, _, .cons (.op _ _ _) (.cons (.op _ _ _) (.cons (.write _ _ rfl rfl)
    (.cons (.finish _ _ rfl) (.cons (.op _ _ _) (.cons (.op _ _ _) (.nil _)))))), rfl⟩

example : Forward [exSet, exGet 7, .write, .finish 8, exGet 9, exGet 10] := by
  unfold Forward
  decide

example : (Spec.run (Spec.empty : KvMap Unit) (operations [exSet, exGet 7, .write, .finish 8, exGet 9, exGet 10])).1 =
    [.ok (.status .inserted), .ok (.value (some (.bytes [1]))), .ok (.value (some (.bytes [1]))),
      .ok (.value none)] := rfl

/-- The hypotheses of the two C38 theorems, on the same execution. -/
example : ∀ e ∈ [exGet 7, .write, .finish 8, exGet 9], ¬ Writes exKey e := by
  intro e he
  simp only [List.mem_cons, List.not_mem_nil, or_false] at he
  rcases he with rfl | rfl | rfl | rfl <;> exact id

example : ∀ e ∈ [exGet 7, .write, .finish 8], ¬ Reaches 10 e := by
  intro e he ⟨x, hx, hle⟩
  simp only [List.mem_cons, List.not_mem_nil, or_false] at he
  rcases he with rfl | rfl | rfl <;> simp [exGet, exClock, Event.time] at hx
  omega

end Bonsai.KV
