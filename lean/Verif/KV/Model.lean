import Verif.Store.OMap

/-!
# Model of the key-value store

`crates/bonsaidb-local/src/database/keyvalue.rs`, `crates/bonsaidb-core/src/keyvalue.rs`,
`crates/bonsaidb-local/src/config.rs:243-310`.

Keys are the UTF-8 bytes of `full_key(namespace, key)` (`Verif/Names/Namespaces.lean`).  Timestamps and
durations are natural numbers of nanoseconds (see C12 for the `Timestamp` arithmetic).  Clock readings
are arguments of the steps: the clock may do anything.  `bincode` and disk errors on reads are not
modelled.
-/
set_option linter.unusedSimpArgs false
set_option linter.unusedSectionVars false

namespace Bonsai.KV
open Bonsai

/-! ## Values -/

/-- The `f64` operations the key-value store uses; `F64` (KV/F64.lean) is the instance of IEEE binary64. -/
class FloatOps (F : Type) where
  add : F → F → F
  sub : F → F → F
  isNaN : F → Bool
  toI64 : F → Int64
  toU64 : F → UInt64
  ofI64 : Int64 → F
  ofU64 : UInt64 → F

variable {F : Type} [FloatOps F]

/-- `Numeric`, core keyvalue.rs:524-533. -/
inductive Numeric (F : Type) where
  | integer (i : Int64)
  | unsigned (u : UInt64)
  | float (f : F)

/-- `Value`, core keyvalue.rs:437-442. -/
inductive Value (F : Type) where
  | bytes (b : Bytes)
  | numeric (n : Numeric F)

inductive Err where
  | notANumber
  | notNumeric
  deriving DecidableEq

/-- `Numeric::validate`, core keyvalue.rs:541-549. -/
def Numeric.validate : Numeric F → Except Err (Numeric F)
  | .float f => if FloatOps.isNaN f then .error .notANumber else .ok (.float f)
  | n => .ok n

/-- `Value::validate`, core keyvalue.rs:446-451. -/
def Value.validate : Value F → Except Err (Value F)
  | .numeric n => n.validate.map .numeric
  | .bytes b => .ok (.bytes b)

/-- `Numeric::as_i64_lossy`, core keyvalue.rs:573-586. -/
def Numeric.asI64 (saturating : Bool) : Numeric F → Int64
  | .integer i => i
  | .unsigned u =>
    if saturating then (if u.toNat < 2 ^ 63 then Int64.ofNat u.toNat else Int64.maxValue)
    else u.toInt64
  | .float f => FloatOps.toI64 f

/-- `Numeric::as_u64_lossy`, core keyvalue.rs:611-624. -/
def Numeric.asU64 (saturating : Bool) : Numeric F → UInt64
  | .unsigned u => u
  | .integer i => if saturating then (if 0 ≤ i.toInt then UInt64.ofNat i.toInt.toNat else 0) else i.toUInt64
  | .float f => FloatOps.toU64 f

/-- `Numeric::as_f64_lossy`, core keyvalue.rs:653-659. -/
def Numeric.asF64 : Numeric F → F
  | .unsigned u => FloatOps.ofU64 u
  | .integer i => FloatOps.ofI64 i
  | .float f => f

/-- `i64::saturating_add` / `saturating_sub` (std): the nearest representable value. -/
def satI64 (x : Int) : Int64 :=
  if x < Int64.minValue.toInt then Int64.minValue
  else if Int64.maxValue.toInt < x then Int64.maxValue else Int64.ofInt x

/-- `u64::saturating_add` / `saturating_sub` (std). -/
def satU64 (x : Int) : UInt64 :=
  if x < 0 then 0 else if 2 ^ 64 ≤ x then UInt64.ofNat (2 ^ 64 - 1) else UInt64.ofNat x.toNat

/-- `increment`, keyvalue.rs:149-177. -/
def increment (existing amount : Numeric F) (saturating : Bool) : Numeric F :=
  match amount with
  | .integer a =>
    let e := existing.asI64 saturating
    .integer (if saturating then satI64 (e.toInt + a.toInt) else e + a)
  | .unsigned a =>
    let e := existing.asU64 saturating
    .unsigned (if saturating then satU64 (e.toNat + a.toNat) else e + a)
  | .float a => .float (FloatOps.add existing.asF64 a)

/-- `decrement`, keyvalue.rs:179-205. -/
def decrement (existing amount : Numeric F) (saturating : Bool) : Numeric F :=
  match amount with
  | .integer a =>
    let e := existing.asI64 saturating
    .integer (if saturating then satI64 (e.toInt - a.toInt) else e - a)
  | .unsigned a =>
    let e := existing.asU64 saturating
    .unsigned (if saturating then satU64 (e.toNat - a.toNat) else e - a)
  | .float a => .float (FloatOps.sub existing.asF64 a)

/-! ## Commands -/

/-- `KeyCheck`, core keyvalue.rs. -/
inductive Check where
  | onlyIfPresent
  | onlyIfVacant
  deriving DecidableEq

/-- `SetCommand`, core keyvalue.rs:420-433. -/
structure SetCommand (F : Type) where
  value : Value F
  expiration : Option Nat
  keepExisting : Bool
  check : Option Check
  returnPrevious : Bool

/-- `Command`, core keyvalue.rs:384-416. -/
inductive Command (F : Type) where
  | set (c : SetCommand F)
  | get (delete : Bool)
  | delete
  | increment (amount : Numeric F) (saturating : Bool)
  | decrement (amount : Numeric F) (saturating : Bool)

/-- `KeyOperation`, core keyvalue.rs, with the full key. -/
structure KeyOp (F : Type) where
  key : Bytes
  command : Command F

/-- `KeyStatus`, core keyvalue.rs. -/
inductive Status where
  | inserted | updated | deleted | notChanged
  deriving DecidableEq

/-- `Output`, core keyvalue.rs. -/
inductive Output (F : Type) where
  | status (s : Status)
  | value (v : Option (Value F))

/-! ## Persistence rules -/

/-- `PersistenceThreshold`, config.rs:318-339. -/
structure Threshold where
  changes : Nat
  duration : Nat

/-- `KeyValuePersistence`, config.rs:245-250. -/
inductive Persistence where
  | immediate
  | lazy (rules : List Threshold)

/-- Insertion by `number_of_changes`; equal counts keep their order (`sort_by` is stable). -/
def insertRule (r : Threshold) : List Threshold → List Threshold
  | [] => [r]
  | x :: xs => if r.changes ≤ x.changes then r :: x :: xs else x :: insertRule r xs

/-- `Vec::sort_by` (std). -/
def sortRules : List Threshold → List Threshold
  | [] => []
  | r :: rs => insertRule r (sortRules rs)

/-- `KeyValuePersistence::lazy`, config.rs:259-266. -/
def Persistence.mkLazy (rules : List Threshold) : Persistence := .lazy (sortRules rules)

/-- `Duration::MAX` (std). -/
@[irreducible] def durationMax : Nat := (2 ^ 64 - 1) * 1000000000 + 999999999

/-- The loop of `duration_until_next_commit`, config.rs:290-302. -/
def shortest (changes elapsed : Nat) : Nat → List Threshold → Nat
  | acc, [] => acc
  | acc, r :: rs =>
    if r.changes ≤ changes then
      let acc := min acc (r.duration - elapsed)
      if acc = 0 then acc else shortest changes elapsed acc rs
    else acc

/-- `duration_until_next_commit`, config.rs:279-307. -/
def Persistence.untilNext (p : Persistence) (changes elapsed : Nat) : Option Nat :=
  if changes = 0 then none
  else match p with
    | .immediate => some 0
    | .lazy rules =>
      let s := shortest changes elapsed durationMax rules
      if s < durationMax then some s else none

/-- `should_commit`, config.rs:270-277. -/
def Persistence.shouldCommit (p : Persistence) (changes elapsed : Nat) : Bool :=
  p.untilNext changes elapsed == some 0

/-! ## State -/

/-- `Entry`, keyvalue.rs:28-34. -/
structure Entry (F : Type) where
  value : Value F
  expiration : Option Nat
  lastUpdated : Nat

/-- `BackgroundWorkerProcessTarget`, keyvalue.rs:828-832. -/
inductive Target where
  | now
  | at (t : Nat)
  | never
  deriving DecidableEq

/-- Where the persisting thread is (`persist_keys`, keyvalue.rs:684-764): no thread; before its
commit; after its commit and before it takes the state lock; it returned early with an error. -/
inductive Writer where
  | idle | writing | written | dead
  deriving DecidableEq

/-- `KeyValueState`, keyvalue.rs:208-219, together with the key tree on disk, the changed keys logged
with each commit, and the persisting thread. -/
structure St (F : Type) where
  persistence : Persistence
  lastCommit : Nat
  target : Target
  expiring : OMap Nat
  order : List Bytes
  dirty : OMap (Option (Entry F))
  persisting : Option (OMap (Option (Entry F)))
  shutdown : Bool
  disk : OMap (Entry F)
  log : List (List (Bytes × Bool))
  writer : Writer

/-- `KeyValueState::new`, keyvalue.rs:222-239, on an existing tree. -/
def St.new (p : Persistence) (now : Nat) (disk : OMap (Entry F)) (log : List (List (Bytes × Bool))) :
    St F :=
  ⟨p, now, .never, .empty, [], .empty, none, false, disk, log, .idle⟩

/-- `KeyValueState::get`, keyvalue.rs:538-550. -/
def St.get (st : St F) (k : Bytes) : Option (Entry F) :=
  match st.dirty.get k with
  | some e => e
  | none =>
    match st.persisting.bind fun b => b.get k with
    | some e => e
    | none => st.disk.get k

/-- `KeyValueState::set`, keyvalue.rs:552-554. -/
def St.set (st : St F) (k : Bytes) (e : Entry F) : St F := { st with dirty := st.dirty.set k (some e) }

/-- `KeyValueState::replace`, keyvalue.rs:556-581. -/
def St.replace (st : St F) (k : Bytes) (e : Entry F) : Option (Entry F) × St F :=
  match st.dirty.get k with
  | none =>
    ((match st.persisting.bind fun b => b.get k with
      | some x => x
      | none => st.disk.get k), { st with dirty := st.dirty.set k (some e) })
  | some old => (old, { st with dirty := st.dirty.set k (some e) })

/-- Position search of keyvalue.rs:382-397: before the first key that expires strictly later. -/
def insertOrder (expiring : OMap Nat) (k : Bytes) (t : Nat) : List Bytes → List Bytes
  | [] => [k]
  | x :: xs =>
    match expiring.get x with
    | some tx => if t < tx then k :: x :: xs else x :: insertOrder expiring k t xs
    | none => x :: insertOrder expiring k t xs  -- `unwrap` panics; impossible by `OrderInv`

/-- `update_key_expiration`, keyvalue.rs:352-420 (the call of `update_background_worker_target` at its
end is overwritten by the one at the end of the operation, and explicit for the loader). -/
def St.updateExpiration (st : St F) (k : Bytes) (expiration : Option Nat) : St F :=
  match expiration with
  | some t =>
    let order := if (st.expiring.get k).isSome then st.order.erase k else st.order
    { st with order := insertOrder st.expiring k t order, expiring := st.expiring.set k t }
  | none =>
    if (st.expiring.get k).isSome then
      { st with order := st.order.erase k, expiring := st.expiring.remove k }
    else st

/-- `KeyValueState::remove`, keyvalue.rs:517-535. -/
def St.remove (st : St F) (k : Bytes) : Option (Entry F) × St F :=
  let st := st.updateExpiration k none
  match st.dirty.get k with
  | some e => (e, { st with dirty := st.dirty.set k none })
  | none =>
    match st.persisting.bind fun b => b.get k with
    | some e => (e, { st with dirty := st.dirty.set k none })
    | none => (st.disk.get k, { st with dirty := st.dirty.set k none })

/-- The loop of `remove_expired_keys`, keyvalue.rs:633-641. -/
def removeLoop (now : Nat) : List Bytes → OMap Nat → OMap (Option (Entry F)) →
    List Bytes × OMap Nat × OMap (Option (Entry F))
  | [], ex, d => ([], ex, d)
  | k :: ks, ex, d =>
    match ex.get k with
    | some t => if t ≤ now then removeLoop now ks (ex.remove k) (d.set k none) else (k :: ks, ex, d)
    | none => (k :: ks, ex, d)  -- `unwrap` panics; impossible by `OrderInv`

/-- `remove_expired_keys`, keyvalue.rs:633-641. -/
def St.removeExpired (st : St F) (now : Nat) : St F :=
  let r := removeLoop now st.order st.expiring st.dirty
  { st with order := r.1, expiring := r.2.1, dirty := r.2.2 }

/-- `needs_commit`, keyvalue.rs:643-651. Subtraction of timestamps gives `None` (then zero) when
negative. -/
def St.needsCommit (st : St F) (now : Nat) : Bool :=
  match st.persisting with
  | some _ => false
  | none => st.persistence.shouldCommit st.dirty.list.length (now - st.lastCommit)

/-- `stage_dirty_keys`, keyvalue.rs:653-661: `none` when there is nothing to stage. -/
def St.stage (st : St F) : Option (St F) :=
  if st.dirty.list ≠ [] ∧ st.persisting.isNone then
    some { st with dirty := .empty, persisting := some st.dirty }
  else none

/-- `commit_dirty_keys`, keyvalue.rs:663-676: stage and start the persisting thread. -/
def St.commit (st : St F) (now : Nat) : St F × Bool :=
  match st.stage with
  | some st => ({ st with lastCommit := now, writer := .writing }, true)
  | none => (st, false)

/-- `key_commit_target` of `update_background_worker_target`, keyvalue.rs:600-609. -/
def St.commitTarget (st : St F) (now : Nat) : Option Nat :=
  match st.persisting with
  | some _ => none
  | none => (st.persistence.untilNext st.dirty.list.length (now - st.lastCommit)).map fun d => now + d

/-- `update_background_worker_target`, keyvalue.rs:594-631. -/
def St.updateTarget (st : St F) (now : Nat) : St F :=
  let keyTarget := st.order.head?.bind fun k => st.expiring.get k
  { st with target :=
      match st.commitTarget now, keyTarget with
      | some c, some k => if c ≤ now ∨ k ≤ now then .now else .at (min k c)
      | some c, none => if c ≤ now then .now else .at c
      | none, some k => if k ≤ now then .now else .at k
      | none, none => .never }

/-! ## Operations -/

/-- The `updating` flag of `execute_set_operation`, keyvalue.rs:316-320. -/
def checkPasses (existing : Option (Entry F)) : Option Check → Bool
  | some .onlyIfPresent => existing.isSome
  | some .onlyIfVacant => existing.isNone
  | none => true

/-- The expiration kept with `keep_existing_expiration`, keyvalue.rs:322-326. -/
def keptExpiration (existing : Option (Entry F)) (requested : Option Nat) : Option Nat :=
  match existing with
  | some e => e.expiration
  | none => requested

/-- `execute_set_operation`, keyvalue.rs:295-346. -/
def St.execSet (st : St F) (k : Bytes) (c : SetCommand F) (now : Nat) :
    Except Err (Output F) × St F :=
  match c.value.validate with
  | .error e => (.error e, st)
  | .ok v =>
    let fetched : Option (Option (Entry F)) :=
      if c.check.isSome ∨ c.returnPrevious ∨ c.keepExisting then some (st.get k) else none
    let existing : Option (Entry F) := fetched.bind id
    if checkPasses existing c.check then
      let expiration := if c.keepExisting then keptExpiration existing c.expiration else c.expiration
      let entry : Entry F := ⟨v, expiration, now⟩
      let st := st.updateExpiration k expiration
      let (previous, st) : Option (Entry F) × St F := match fetched with
        | some e => (e, st.set k entry)
        | none => st.replace k entry
      if c.returnPrevious then (.ok (.value (previous.map (·.value))), st)
      else match previous with
        | none => (.ok (.status .inserted), st)
        | some _ => (.ok (.status .updated), st)
    else (.ok (.status .notChanged), st)

/-- `execute_numeric_operation`, keyvalue.rs:484-514. -/
def St.execNumeric (st : St F) (k : Bytes) (amount : Numeric F) (saturating : Bool) (now : Nat)
    (op : Numeric F → Numeric F → Bool → Numeric F) : Except Err (Output F) × St F :=
  let entry := (st.get k).getD ⟨.numeric (.unsigned 0), none, now⟩
  match entry.value with
  | .numeric existing =>
    match (op existing amount saturating).validate with
    | .error e => (.error e, st)
    | .ok n => (.ok (.value (some (.numeric n))), st.set k { entry with value := .numeric n })
  | .bytes _ => (.error .notNumeric, st)

/-- The command part of `perform_kv_operation`, keyvalue.rs:259-281, with
`execute_get_operation` 421-436 and `execute_delete_operation` 439-451. -/
def St.exec (st : St F) (now : Nat) (op : KeyOp F) : Except Err (Output F) × St F :=
  match op.command with
  | .set c => st.execSet op.key c now
  | .get false => (.ok (.value ((st.get op.key).map (·.value))), st)
  | .get true =>
    let r := st.remove op.key
    (.ok (.value (r.1.map (·.value))), r.2)
  | .delete =>
    let r := st.remove op.key
    (.ok (.status (match r.1 with | some _ => .deleted | none => .notChanged)), r.2)
  | .increment a s => st.execNumeric op.key a s now increment
  | .decrement a s => st.execNumeric op.key a s now decrement

/-- The clock readings of one operation: its `now` (keyvalue.rs:256), the one of
`commit_dirty_keys` (keyvalue.rs:671), the one of `update_background_worker_target`
(keyvalue.rs:599). -/
structure Clock where
  now : Nat
  commit : Nat
  target : Nat

/-- `if self.needs_commit(now) { self.commit_dirty_keys(state) }; update_background_worker_target()`,
keyvalue.rs:283-286 and 813-816. -/
def St.settle (st : St F) (ck : Clock) : St F :=
  (if st.needsCommit ck.now then (st.commit ck.commit).1 else st).updateTarget ck.target

/-- `perform_kv_operation`, keyvalue.rs:251-289. -/
def St.perform (st : St F) (ck : Clock) (op : KeyOp F) : Except Err (Output F) × St F :=
  match (st.removeExpired ck.now).exec ck.now op with
  | (.ok o, st) => (.ok o, st.settle ck)
  | (.error e, st) => (.error e, st)

/-- One pass of the background worker, keyvalue.rs:809-817. -/
def St.tick (st : St F) (ck : Clock) : St F := (st.removeExpired ck.now).settle ck

/-! ## Persisting -/

/-- One key of the `CompareSwap` of `persist_keys`, keyvalue.rs:702-724: new disk and the change. -/
def persistKey (disk : OMap (Entry F)) (k : Bytes) (v : Option (Entry F)) :
    OMap (Entry F) × Option (Bytes × Bool) :=
  match v with
  | some e => (disk.set k e, some (k, false))
  | none => if (disk.get k).isSome then (disk.remove k, some (k, true)) else (disk, none)

/-- `modify(all_keys, CompareSwap)` of `persist_keys`, keyvalue.rs:697-726. -/
def persistBatch : List (Bytes × Option (Entry F)) → OMap (Entry F) →
    OMap (Entry F) × List (Bytes × Bool)
  | [], disk => (disk, [])
  | (k, v) :: r, disk =>
    let p := persistKey disk k v
    let q := persistBatch r p.1
    (q.1, p.2.toList ++ q.2)

/-- The commit of `persist_keys`, keyvalue.rs:728-736: nothing is committed when no key changed. -/
def St.write (st : St F) (batch : OMap (Option (Entry F))) : St F :=
  let r := persistBatch batch.list st.disk
  if r.2 = [] then { st with writer := .written }
  else { st with disk := r.1, log := st.log ++ [r.2], writer := .written }

/-- The end of `persist_keys`, keyvalue.rs:738-762. -/
def St.finish (st : St F) (now : Nat) : St F :=
  let st := { st with persisting := none, writer := .idle }.updateTarget now
  if st.shutdown then
    match st.stage with
    | some st => { st with writer := .writing }
    | none => { st with shutdown := false }
  else st

/-- `shutdown`, keyvalue.rs:241-249: `true` when the caller gets a receiver to wait on. -/
def St.beginShutdown (st : St F) (now : Nat) : St F × Bool :=
  match st.persisting with
  | some _ => (st, false)
  | none =>
    let r := st.commit now
    if r.2 then ({ r.1 with shutdown := true }, true) else (r.1, false)

end Bonsai.KV
