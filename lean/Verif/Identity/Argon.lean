import Verif.Key.Model

/-!
# Hashing passwords (model)

`crates/bonsaidb-local/src/storage/argon.rs` and `config/argon.rs`.

Argon2 itself and the text form of a hash (crates `argon2`, `password-hash`) are parameters.  Channels are `flume`'s.
Time is counted in nanoseconds; what a run of the calibration takes is up to the machine.  Durations do not overflow.
-/
set_option linter.unusedVariables false

namespace Bonsai.Argon

/-! ## The configuration -/

/-- `MINIMUM_RAM_PER_HASHER`, config/argon.rs:111. -/
def minimumRam : Nat := 19 * 1024 * 1024

/-- `u32::try_from(x).unwrap_or(u32::MAX)`. -/
def clampU32 (x : Nat) : Nat := if x < 2 ^ 32 then x else 2 ^ 32 - 1

/-- The number of hashers of `ArgonConfiguration::default_for`, config/argon.rs:25-40, for a number of cores and the
total memory. -/
def defaultHashers (cores memory : Nat) : Nat :=
  let hashers := (cores + 3) / 4
  let maxHashers := clampU32 (memory / minimumRam)
  if maxHashers > 0 ∧ hashers > maxHashers then maxHashers else hashers

/-- `ram_per_hasher` of `TimedArgonParams::default_for`, config/argon.rs:149-156, in a release build; dividing by zero
panics. -/
def defaultRam (memory hashers : Nat) : Option Nat :=
  if hashers = 0 then none else some (max (clampU32 memory / 32 / hashers) minimumRam)

/-- The lanes of `TimedArgonParams::default_for`, config/argon.rs:165, and of its `Default`, config/argon.rs:98. -/
def defaultForLanes : Nat := 4
def defaultLanes : Nat := 1

/-! ## The calibration -/

/-- What the calibration knows: `min_cost`, `total_spent_t`, `total_duration`, argon.rs:124-126. -/
structure Cal where
  minCost : Nat
  spent : Nat
  dur : Nat
  deriving DecidableEq

/-- argon.rs:124-126. -/
def Cal.start : Cal := ⟨2, 0, 0⟩

/-- `ceil_divide`, argon.rs:281-290; `none` is its panic. -/
def ceilDivide (dividend divisor : Nat) : Option Nat :=
  if divisor = 0 then none
  else if divisor = 1 then some dividend
  else some ((dividend + (divisor - 1)) / divisor)

/-- `t_cost`, argon.rs:129-139; `none` is a panic of `ceil_divide` or of the `unwrap`. -/
def Cal.cost (minimum : Nat) (c : Cal) : Option Nat :=
  if c.spent > 0 then
    match ceilDivide minimum (c.dur / c.spent) with
    | none => none
    | some q => if q < 2 ^ 32 then some (max q c.minCost) else none
  else some c.minCost

/-- After a run that was too short, argon.rs:162-164. The `u32`s overflow with a panic when `checked` (debug builds) and
wrap otherwise. -/
def Cal.advance (checked : Bool) (c : Cal) (t elapsed : Nat) : Option Cal :=
  if checked ∧ ¬ (c.spent + t < 2 ^ 32 ∧ t + 1 < 2 ^ 32) then none
  else some ⟨(t + 1) % 2 ^ 32, (c.spent + t) % 2 ^ 32, c.dur + elapsed⟩

/-- How a calibration ends. -/
inductive CalOut where
  /-- With the parameters' `t_cost`. -/
  | ok (t : Nat)
  /-- The parameters are refused, argon.rs:142, or hashing with them fails, argon.rs:151-156. -/
  | err
  | panic
  deriving DecidableEq

/-- The loop of `initialize_builder_template`, argon.rs:128-170: the runs, with their cost and the time measured for
them (`none` when the clock went backwards, argon.rs:158-160). `valid t` says whether hashing works with `t_cost = t`. -/
inductive CalRun (minimum : Nat) (checked : Bool) (valid : Nat → Bool) : Cal → List (Nat × Option Nat) → CalOut → Prop
  | costPanic {c : Cal} : c.cost minimum = none → CalRun minimum checked valid c [] .panic
  | invalid {c : Cal} {t : Nat} : c.cost minimum = some t → valid t = false → CalRun minimum checked valid c [] .err
  | clock {c : Cal} {t : Nat} {rs : List (Nat × Option Nat)} {o : CalOut} : c.cost minimum = some t → valid t = true →
      CalRun minimum checked valid c rs o → CalRun minimum checked valid c ((t, none) :: rs) o
  | enough {c : Cal} {t e : Nat} : c.cost minimum = some t → valid t = true → minimum ≤ e →
      CalRun minimum checked valid c [(t, some e)] (.ok t)
  | overflow {c : Cal} {t e : Nat} : c.cost minimum = some t → valid t = true → e < minimum →
      c.advance checked t e = none → CalRun minimum checked valid c [(t, some e)] .panic
  | more {c c' : Cal} {t e : Nat} {rs : List (Nat × Option Nat)} {o : CalOut} : c.cost minimum = some t →
      valid t = true → e < minimum → c.advance checked t e = some c' → CalRun minimum checked valid c' rs o →
      CalRun minimum checked valid c ((t, some e) :: rs) o

/-- The beginning of a calibration. -/
inductive CalPath (minimum : Nat) (checked : Bool) (valid : Nat → Bool) : Cal → List (Nat × Nat) → Cal → Prop
  | nil {c : Cal} : CalPath minimum checked valid c [] c
  | cons {c c' c'' : Cal} {t e : Nat} {rs : List (Nat × Nat)} : c.cost minimum = some t → valid t = true → e < minimum →
      c.advance checked t e = some c' → CalPath minimum checked valid c' rs c'' →
      CalPath minimum checked valid c ((t, e) :: rs) c''

/-! ## Hashing and verifying -/

/-- The parameters of a hash: algorithm, `m_cost`, `t_cost`, `p_cost` and the associated data. -/
structure Params where
  algorithm : Nat
  m : Nat
  t : Nat
  p : Nat
  data : Bytes
  deriving DecidableEq

/-- `PasswordHash`. -/
structure PHash where
  params : Params
  salt : Bytes
  out : Bytes
  deriving DecidableEq

/-- Argon2, whether it accepts parameters, and the text form of a hash, which can be read back. -/
structure Crypto where
  argon : Params → Bytes → Bytes → Bytes
  valid : Params → Bool
  render : PHash → Bytes
  parse : Bytes → Option PHash
  parse_render : ∀ h, parse (render h) = some h

/-- `HashRequest`, argon.rs:260-265. -/
structure Req where
  id : Nat
  password : Bytes
  against : Option Bytes
  deriving DecidableEq

/-- What a call of `Hasher::hash` or `Hasher::verify` returns. -/
inductive Res where
  | hashed (h : Bytes)
  | verified
  | invalidCredentials
  | failed
  | internalCommunication
  deriving DecidableEq

/-- `HashingThread::verify`, argon.rs:187-202, with what `Hasher::verify` makes of it, argon.rs:81-87.  The user id of
the request is not used. -/
def verifyAnswer (K : Crypto) (r : Req) (saved : Bytes) : Res :=
  match K.parse saved with
  | none => .invalidCredentials
  | some h => if K.valid h.params ∧ K.argon h.params h.salt r.password = h.out then .verified else .invalidCredentials

/-- The template's parameters with the user's id as data, argon.rs:216. -/
def Params.forUser (p : Params) (id : Nat) : Params := { p with data := toBE 8 id }

/-- `HashingThread::hash` with the template made before, argon.rs:204-252, with what `Hasher::hash` makes of it,
argon.rs:54-58. -/
def hashAnswer (K : Crypto) (template : Option Params) (r : Req) (salt : Bytes) : Res :=
  match template with
  | none => .failed
  | some p =>
    if K.valid (p.forUser r.id) then
      .hashed (K.render ⟨p.forUser r.id, salt, K.argon (p.forUser r.id) salt r.password⟩)
    else .failed

/-- The configuration: explicit parameters or the timed ones, config/argon.rs:54-61. -/
inductive Config where
  | params (p : Params)
  | timed (p : Params) (minimum : Nat)

/-- `initialize_builder_template`, argon.rs:106-173: the template (`some none` is the error that is kept), or `none` for a
panic. -/
inductive Template (K : Crypto) (checked : Bool) : Config → Option (Option Params) → Prop
  | params {p : Params} : Template K checked (.params p) (some (some p))
  | ok {p : Params} {minimum t : Nat} {rs : List (Nat × Option Nat)} :
      CalRun minimum checked (fun t => K.valid { p with t := t, data := toBE 8 0 }) Cal.start rs (.ok t) →
      Template K checked (.timed p minimum) (some (some { p with t := t, data := toBE 8 0 }))
  | err {p : Params} {minimum : Nat} {rs : List (Nat × Option Nat)} :
      CalRun minimum checked (fun t => K.valid { p with t := t, data := toBE 8 0 }) Cal.start rs .err →
      Template K checked (.timed p minimum) (some none)
  | panic {p : Params} {minimum : Nat} {rs : List (Nat × Option Nat)} :
      CalRun minimum checked (fun t => K.valid { p with t := t, data := toBE 8 0 }) Cal.start rs .panic →
      Template K checked (.timed p minimum) none

/-- A hashing thread. -/
inductive Thread where
  | idle
  | busy (i : Nat)
  | dead
  deriving DecidableEq

/-- How far a call is. -/
inductive Status where
  | queued
  | running
  | answered (r : Res)
  deriving DecidableEq

/-- A call with its request. -/
structure Call where
  req : Req
  status : Status
  deriving DecidableEq

/-- The calls, the channel, the threads and the shared cell with the template. -/
structure Pool where
  calls : Nat → Option Call
  queue : List Nat
  threads : List Thread
  template : Option (Option Params)

/-- `Hasher::new`, argon.rs:22-42: at least one thread. -/
def Pool.new (hashers : Nat) : Pool := ⟨fun _ => none, [], List.replicate (max hashers 1) .idle, none⟩

/-- Call `i` is changed. -/
def Pool.setCall (σ : Pool) (i : Nat) (c : Call) : Pool :=
  { σ with calls := fun j => if j = i then some c else σ.calls j }

/-- Thread `t` is changed. -/
def Pool.setThread (σ : Pool) (t : Nat) (s : Thread) : Pool := { σ with threads := σ.threads.set t s }

/-- Somebody still receives from the channel. -/
def Pool.Alive (σ : Pool) : Prop := ∃ t ∈ σ.threads, t ≠ Thread.dead

/-- A step. -/
inductive Step (K : Crypto) (checked : Bool) (cfg : Config) : Pool → Pool → Prop
  /-- `send`, argon.rs:46-54, 72-80. -/
  | submit {σ : Pool} {i : Nat} (r : Req) : σ.calls i = none → σ.Alive →
      Step K checked cfg σ { σ.setCall i ⟨r, .queued⟩ with queue := σ.queue ++ [i] }
  /-- `send` fails when all threads are gone, argon.rs:59-61, 88-90. -/
  | refuse {σ : Pool} {i : Nat} (r : Req) : σ.calls i = none → ¬ σ.Alive →
      Step K checked cfg σ (σ.setCall i ⟨r, .answered .internalCommunication⟩)
  /-- `recv`, argon.rs:177. -/
  | take {σ : Pool} {i t : Nat} {q : List Nat} {r : Req} : σ.queue = i :: q → σ.threads[t]? = some .idle →
      σ.calls i = some ⟨r, .queued⟩ →
      Step K checked cfg σ (({ σ with queue := q }.setThread t (.busy i)).setCall i ⟨r, .running⟩)
  /-- A password is verified, argon.rs:178-183. -/
  | verify {σ : Pool} {i t : Nat} {r : Req} {saved : Bytes} : σ.threads[t]? = some (.busy i) →
      σ.calls i = some ⟨r, .running⟩ → r.against = some saved →
      Step K checked cfg σ ((σ.setThread t .idle).setCall i ⟨r, .answered (verifyAnswer K r saved)⟩)
  /-- The template is made, argon.rs:209-213. -/
  | init {σ : Pool} {i t : Nat} {r : Req} {x : Option Params} : σ.threads[t]? = some (.busy i) →
      σ.calls i = some ⟨r, .running⟩ → r.against = none → σ.template = none → Template K checked cfg (some x) →
      Step K checked cfg σ { σ with template := some x }
  /-- Making it panics: the thread is gone and with it the request, whose caller gets an error. -/
  | die {σ : Pool} {i t : Nat} {r : Req} : σ.threads[t]? = some (.busy i) →
      σ.calls i = some ⟨r, .running⟩ → r.against = none → σ.template = none → Template K checked cfg none →
      Step K checked cfg σ ((σ.setThread t .dead).setCall i ⟨r, .answered .internalCommunication⟩)
  /-- A password is hashed with some salt, argon.rs:215-252. -/
  | hash {σ : Pool} {i t : Nat} {r : Req} {x : Option Params} (salt : Bytes) : σ.threads[t]? = some (.busy i) →
      σ.calls i = some ⟨r, .running⟩ → r.against = none → σ.template = some x →
      Step K checked cfg σ ((σ.setThread t .idle).setCall i ⟨r, .answered (hashAnswer K x r salt)⟩)

/-- Any number of steps. -/
inductive Steps (K : Crypto) (checked : Bool) (cfg : Config) : Pool → Pool → Prop
  | refl {σ : Pool} : Steps K checked cfg σ σ
  | step {σ σ' σ'' : Pool} : Steps K checked cfg σ σ' → Step K checked cfg σ' σ'' → Steps K checked cfg σ σ''

/-- What can happen to a pool. -/
def Reach (K : Crypto) (checked : Bool) (cfg : Config) (hashers : Nat) (σ : Pool) : Prop :=
  Steps K checked cfg (Pool.new hashers) σ

end Bonsai.Argon
