import Verif.KV.Model

/-!
# Specification of the key-value store: a map with expirations

This file does not mention the code's state: no dirty keys, no batches, no queue.
`increment` and `decrement` on numbers are specified by C39.
-/

namespace Bonsai.KV
open Bonsai

variable {F : Type} [FloatOps F]

/-- What a user sees: each key has at most one value and optionally an expiration. -/
abbrev KvMap (F : Type) := Bytes → Option (Value F × Option Nat)

namespace Spec

/-- Nothing is stored. -/
def empty : KvMap F := fun _ => none

/-- Forget what has expired at `now`. -/
def expire (now : Nat) (m : KvMap F) : KvMap F := fun k =>
  match m k with
  | some (v, some t) => if t ≤ now then none else some (v, some t)
  | x => x

/-- Store at one key. -/
def put (m : KvMap F) (k : Bytes) (x : Option (Value F × Option Nat)) : KvMap F :=
  fun k' => if k' = k then x else m k'

/-- Whether the check of a set command passes. -/
def passes (present : Bool) : Option Check → Bool
  | none => true
  | some .onlyIfPresent => present
  | some .onlyIfVacant => !present

/-- A set command on the present contents. -/
def set (m : KvMap F) (k : Bytes) (c : SetCommand F) : Except Err (Output F) × KvMap F :=
  match c.value.validate with
  | .error e => (.error e, m)
  | .ok v =>
    if passes (m k).isSome c.check then
      let expiration := match c.keepExisting, m k with
        | true, some (_, t) => t
        | _, _ => c.expiration
      (.ok (if c.returnPrevious then .value ((m k).map (·.1))
            else .status (if (m k).isSome then .updated else .inserted)),
       put m k (some (v, expiration)))
    else (.ok (.status .notChanged), m)

/-- An increment or decrement: an absent key counts as zero, expirations are kept. -/
def numeric (m : KvMap F) (k : Bytes) (f : Numeric F → Numeric F) : Except Err (Output F) × KvMap F :=
  match m k with
  | some (.bytes _, _) => (.error .notNumeric, m)
  | some (.numeric n, t) =>
    match (f n).validate with
    | .error e => (.error e, m)
    | .ok r => (.ok (.value (some (.numeric r))), put m k (some (.numeric r, t)))
  | none =>
    match (f (.unsigned 0)).validate with
    | .error e => (.error e, m)
    | .ok r => (.ok (.value (some (.numeric r))), put m k (some (.numeric r, none)))

/-- A command on the present contents: its answer and the new contents. -/
def exec (m : KvMap F) (op : KeyOp F) : Except Err (Output F) × KvMap F :=
  match op.command with
  | .set c => set m op.key c
  | .get delete => (.ok (.value ((m op.key).map (·.1))), if delete then put m op.key none else m)
  | .delete => (.ok (.status (if (m op.key).isSome then .deleted else .notChanged)), put m op.key none)
  | .increment a s => numeric m op.key (fun n => increment n a s)
  | .decrement a s => numeric m op.key (fun n => decrement n a s)

/-- A command at time `now`. -/
def perform (m : KvMap F) (now : Nat) (op : KeyOp F) : Except Err (Output F) × KvMap F :=
  exec (expire now m) op

/-- A sequence of commands with the times at which they are executed: the answers and the final
contents. -/
def run (m : KvMap F) : List (Nat × KeyOp F) → List (Except Err (Output F)) × KvMap F
  | [] => ([], m)
  | (now, op) :: r =>
    let p := perform m now op
    let q := run p.2 r
    (p.1 :: q.1, q.2)

end Spec
end Bonsai.KV
