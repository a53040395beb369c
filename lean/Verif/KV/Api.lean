import Verif.KV.C39b
import Verif.Names.Namespaces
import Verif.Time.Model

/-!
# The typed key-value API

`crates/bonsaidb-core/src/keyvalue.rs`, `keyvalue/implementation/{set,get,increment,namespaced}.rs`: the
builders a program uses.  A call is a request (one `KeyOperation`, or none when the value cannot be
serialized) and what it makes of the answer.  The asynchronous builders (`set.rs:153-334`,
`get.rs:159-348`, `increment.rs:78-179`) contain the same code around an `await`; using one after it was
awaited is ruled out by ownership.  `pot` is a serializer of which only "what was written can be read" is
known.
-/
set_option linter.unusedSimpArgs false
set_option linter.unusedVariables false
set_option linter.unusedSectionVars false

namespace Bonsai.KV
open Bonsai Time

/-! ## Strict conversions -/

namespace F64

/-- `f64::EPSILON` = `2^-52`, in units. -/
@[irreducible] def epsilon : Nat := 2 ^ 1022

/-- `value.fract().abs() > 0.`: a comparison with NaN is false. -/
def hasFraction (x : F64) : Bool :=
  match x.fract with
  | some r => decide (r ≠ 0)
  | none => false

/-- `value.fract() < f64::EPSILON`: likewise (`fract` of an infinity is NaN). -/
def fractBelowEpsilon (x : F64) : Bool :=
  match x.fract with
  | some r => decide (r < (epsilon : Int))
  | none => false

end F64

namespace Numeric

/-- `Numeric::as_i64`, core keyvalue.rs:552-564. -/
def asI64Strict : Numeric F64 → Option Int64
  | .integer i => some i
  | .unsigned u => if u.toNat < 2 ^ 63 then some (Int64.ofNat u.toNat) else none
  | .float f => if f.hasFraction then none else some f.toI64

/-- `Numeric::as_u64`, core keyvalue.rs:589-602. -/
def asU64Strict : Numeric F64 → Option UInt64
  | .unsigned u => some u
  | .integer i => if 0 ≤ i.toInt then some (UInt64.ofNat i.toInt.toNat) else none
  | .float f => if f.fractBelowEpsilon = true ∧ f.neg = false then some f.toU64 else none

/-- `Numeric::as_f64`, core keyvalue.rs:626-646; `f64::MANTISSA_DIGITS` is 53. -/
def asF64Strict : Numeric F64 → Option F64
  | .unsigned u => if 2 ^ 53 < u.toNat then none else some (F64.ofU64 u)
  | .integer i => if 2 ^ 53 < i.toInt ∨ i.toInt < -(2 ^ 53) then none else some (F64.ofI64 i)
  | .float f => some f

end Numeric

/-! ## Calls -/

/-- What a call returns besides its value. -/
inductive CallErr where
  | store (e : Err)
  | serialization
  | conversion
  deriving DecidableEq

/-- The result of a call. -/
inductive Outcome (α : Type) where
  | ok (a : α)
  | err (e : CallErr)
  | panic

/-- A typed call: the request it sends, or the error before it sends one; and what it makes of the answer. -/
structure Call (α : Type) where
  request : Except CallErr (KeyOp F64)
  interpret : Except Err (Output F64) → Outcome α

/-- Executing a call on the store. -/
def Call.run {α : Type} (c : Call α) (st : St F64) (ck : Clock) : Outcome α × St F64 :=
  match c.request with
  | .error e => (.err e, st)
  | .ok op => (c.interpret (st.perform ck op).1, (st.perform ck op).2)

/-- `pot::to_vec` / `pot::from_slice` for a type. -/
structure Pot (V : Type) where
  enc : V → Option Bytes
  dec : Bytes → Option V
  rt : ∀ v b, enc v = some b → dec b = some v

/-! ## Handles and namespaces -/

/-- A key-value handle: the database (`none`) or a namespace of it, core keyvalue.rs:168-177. -/
abbrev Handle := Option String

/-- `with_key_namespace`: on the database (core keyvalue.rs:175-177) and on a namespace
(namespaced.rs:33-42). -/
def Handle.withNamespace (h : Handle) (ns : String) : Handle :=
  match h with
  | none => some ns
  | some outer => some (outer ++ "\x00" ++ ns)

/-- The stored key a handle addresses (`full_key`, local keyvalue.rs:126-135). -/
def Handle.key (h : Handle) (key : String) : Bytes := Names.fullKey h key

/-! ## Set -/

/-- `PendingValue`, core keyvalue.rs:340-344. -/
inductive PendingValue (V : Type) where
  | bytes (b : Bytes)
  | serializable (v : V)
  | numeric (n : Numeric F64)

/-- `PendingValue::prepare`, core keyvalue.rs:350-356. -/
def PendingValue.prepare {V : Type} (p : Pot V) : PendingValue V → Except CallErr (Value F64)
  | .bytes b => .ok (.bytes b)
  | .serializable v => match p.enc v with | some b => .ok (.bytes b) | none => .error .serialization
  | .numeric n => .ok (.numeric n)

/-- `set::Builder`, set.rs:16-24. -/
structure SetBuilder (V : Type) where
  handle : Handle
  key : String
  value : PendingValue V
  expiration : Option Nat
  keepExisting : Bool
  check : Option Check

/-- `set_key`, `set_binary_key`, `set_numeric_key`: core keyvalue.rs:58-102 and set.rs:31-46. -/
def setKey {V : Type} (h : Handle) (key : String) (v : PendingValue V) : SetBuilder V :=
  ⟨h, key, v, none, false, none⟩

/-- `Timestamp::from(SystemTime)`, timestamp.rs:37-46: a time before the epoch panics. -/
def timestampFrom (t : Int) : Res Nat := if t < 0 then .panic else .ok t.toNat

/-- The first time that a `SystemTime` cannot represent (std, unix: the seconds are an `i64`), in
nanoseconds. -/
@[irreducible] def systemTimeEnd : Nat := 2 ^ 63 * 1000000000

/-- `SystemTime + Duration` (std, unix): panics when the seconds leave the `i64` range. -/
def systemTimeAdd (t : Int) (d : Dur) : Res Int :=
  if t + d.total < systemTimeEnd then .ok (t + d.total) else .panic

namespace SetBuilder
variable {V : Type}

/-- `expire_in`, set.rs:49-53; `now` is the clock reading, in nanoseconds from the Unix epoch. -/
def expireIn (b : SetBuilder V) (now : Int) (d : Dur) : Res (SetBuilder V) :=
  ((systemTimeAdd now d).bind timestampFrom).map (fun t => { b with expiration := some t })

/-- `expire_at`, set.rs:56-60. -/
def expireAt (b : SetBuilder V) (t : Int) : Res (SetBuilder V) :=
  (timestampFrom t).map (fun t => { b with expiration := some t })

/-- `keep_existing_expiration`, `only_if_exists`, `only_if_vacant`: set.rs:63-78. -/
def keepExistingExpiration (b : SetBuilder V) : SetBuilder V := { b with keepExisting := true }
def onlyIfExists (b : SetBuilder V) : SetBuilder V := { b with check := some .onlyIfPresent }
def onlyIfVacant (b : SetBuilder V) : SetBuilder V := { b with check := some .onlyIfVacant }

/-- The request of `execute` and `returning_previous`, set.rs:94-104 and 134-144. -/
def request (p : Pot V) (b : SetBuilder V) (returnPrevious : Bool) : Except CallErr (KeyOp F64) :=
  match b.value.prepare p with
  | .error e => .error e
  | .ok v => .ok ⟨b.handle.key b.key, .set ⟨v, b.expiration, b.keepExisting, b.check, returnPrevious⟩⟩

/-- `execute`, set.rs:124-150. -/
def execute (p : Pot V) (b : SetBuilder V) : Call Status where
  request := b.request p false
  interpret
    | .error e => .err (.store e)
    | .ok (.status s) => .ok s
    | .ok (.value _) => .panic

/-- `returning_previous`, set.rs:83-110. -/
def returningPrevious (p : Pot V) (b : SetBuilder V) : Call (Option (Value F64)) where
  request := b.request p true
  interpret
    | .error e => .err (.store e)
    | .ok (.value v) => .ok v
    | .ok (.status .notChanged) => .ok none
    | .ok (.status _) => .panic

end SetBuilder

/-! ## Get -/

/-- `Value::deserialize`, core keyvalue.rs:455-463. -/
def Value.deserialize {V : Type} (p : Pot V) : Value F64 → Except CallErr V
  | .bytes b => match p.dec b with | some v => .ok v | none => .error .serialization
  | .numeric _ => .error .conversion

/-- `Value::as_i64`, `as_u64`, `as_f64`: core keyvalue.rs:494-517. -/
def Value.asI64Strict : Value F64 → Option Int64
  | .bytes _ => none
  | .numeric n => n.asI64Strict
def Value.asU64Strict : Value F64 → Option UInt64
  | .bytes _ => none
  | .numeric n => n.asU64Strict
def Value.asF64Strict : Value F64 → Option F64
  | .bytes _ => none
  | .numeric n => n.asF64Strict

/-- `Value::as_i64_lossy`, `as_u64_lossy`, `as_f64_lossy`: core keyvalue.rs:467-490. -/
def Value.asI64Lossy (saturating : Bool) : Value F64 → Option Int64
  | .bytes _ => none
  | .numeric n => some (n.asI64 saturating)
def Value.asU64Lossy (saturating : Bool) : Value F64 → Option UInt64
  | .bytes _ => none
  | .numeric n => some (n.asU64 saturating)
def Value.asF64Lossy : Value F64 → Option F64
  | .bytes _ => none
  | .numeric n => some n.asF64

/-- `get_key(key)[.and_delete()].query()`, get.rs:140-157. -/
def getKey (h : Handle) (key : String) (delete : Bool) : Call (Option (Value F64)) where
  request := .ok ⟨h.key key, .get delete⟩
  interpret
    | .error e => .err (.store e)
    | .ok (.value v) => .ok v
    | .ok (.status _) => .panic

/-- What the `into…` methods do with the answer of `query`, get.rs:37-137. -/
def Call.convert {α : Type} (c : Call (Option (Value F64))) (f : Value F64 → Except CallErr α) :
    Call (Option α) where
  request := c.request
  interpret a := match c.interpret a with
    | .ok (some v) => match f v with | .ok x => .ok (some x) | .error e => .err e
    | .ok none => .ok none
    | .err e => .err e
    | .panic => .panic

/-- `map_or_else(|| Err(..), |value| Ok(Some(value)))`. -/
def orConversion {α : Type} : Option α → Except CallErr α
  | some x => .ok x
  | none => .error .conversion

def Call.into {V : Type} (c : Call (Option (Value F64))) (p : Pot V) : Call (Option V) :=
  c.convert (Value.deserialize p)
def Call.intoI64 (c : Call (Option (Value F64))) : Call (Option Int64) :=
  c.convert fun v => orConversion v.asI64Strict
def Call.intoU64 (c : Call (Option (Value F64))) : Call (Option UInt64) :=
  c.convert fun v => orConversion v.asU64Strict
def Call.intoF64 (c : Call (Option (Value F64))) : Call (Option F64) :=
  c.convert fun v => orConversion v.asF64Strict

/-! ## Delete, increment, decrement -/

/-- `delete_key`, core keyvalue.rs:156-165. -/
def deleteKey (h : Handle) (key : String) : Call Status where
  request := .ok ⟨h.key key, .delete⟩
  interpret
    | .error e => .err (.store e)
    | .ok (.status s) => .ok s
    | .ok (.value _) => .panic

/-- The types with `Into<Numeric> + TryFrom<Numeric>`, core keyvalue.rs:666-722. -/
class NumTy (V : Type) where
  into : V → Numeric F64
  tryFrom : Numeric F64 → Option V

instance : NumTy Int64 := ⟨.integer, fun | .integer i => some i | _ => none⟩
instance : NumTy UInt64 := ⟨.unsigned, fun | .unsigned u => some u | _ => none⟩
instance : NumTy F64 := ⟨.float, fun | .float f => some f | _ => none⟩

/-- `increment_key_by` / `decrement_key_by`, core keyvalue.rs:109-147, with or without
`allow_overflow`, and `execute`, increment.rs:45-76. -/
def changeKey {V : Type} [NumTy V] (h : Handle) (key : String) (inc : Bool) (amount : V)
    (saturating : Bool := true) : Call V where
  request := .ok ⟨h.key key,
    if inc then .increment (NumTy.into amount) saturating else .decrement (NumTy.into amount) saturating⟩
  interpret
    | .error e => .err (.store e)
    | .ok (.value (some (.numeric n))) => match NumTy.tryFrom n with | some v => .ok v | none => .panic
    | .ok _ => .panic

end Bonsai.KV
