import Verif.Key.Model

/-!
# Specification vocabulary for keys

What a user expects of a key type, stated only through `enc`, `dec` and `lt`.
-/

namespace Bonsai

/-- Decoding an encoding gives the value back (for byte strings that fit in memory). -/
def RoundTrips (k : KeyTy) : Prop :=
  ∀ v b, k.enc v = some b → b.length < 2 ^ 64 → k.dec b = .ok v

/-- Encodings have the declared `LENGTH`. -/
def HonestLen (k : KeyTy) : Prop :=
  ∀ v b n, k.enc v = some b → k.len = some n → b.length = n

/-- Different values have different encodings. -/
def Injective (k : KeyTy) : Prop :=
  ∀ v w b, b.length < 2 ^ 64 → k.enc v = some b → k.enc w = some b → v = w

/-- `memcmp` on encodings is the order of the values. -/
def SortsCorrectly (k : KeyTy) : Prop :=
  ∀ v w a b, k.enc v = some a → k.enc w = some b → (a < b ↔ k.lt v w)

/-- The values are totally ordered by the type's own order. -/
def TotallyOrdered (k : KeyTy) : Prop :=
  (∀ v w, k.lt v w ∨ v = w ∨ k.lt w v) ∧ (∀ v, ¬ k.lt v v) ∧ (∀ v w, k.lt v w → ¬ k.lt w v)

/-- No encoding is a proper prefix of another one. -/
def PrefixFree (k : KeyTy) : Prop :=
  ∀ v w a b, k.enc v = some a → k.enc w = some b → a <+: b → v = w

/-- Decoding never panics, whatever the bytes. -/
def NeverPanics (k : KeyTy) : Prop := ∀ b, k.dec b ≠ .panic

/-- The fields of a tuple, each with its key type. -/
def fieldsOf : (ks : List KeyTy) → Tuple ks → List ((k : KeyTy) × k.T)
  | [], _ => []
  | k :: ks, (v, vs) => ⟨k, v⟩ :: fieldsOf ks vs

/-- Number of bytes a variable-length field takes: doubled nulls when escaping. -/
def storedLength : NullMode → Bytes → Nat
  | .escape, b => b.length + b.count 0
  | _, b => b.length

/-- Neither byte string is the other one continued with a null byte. -/
def NullSeparated (a b : Bytes) : Prop := ¬ (a ++ [0]) <+: b ∧ ¬ (b ++ [0]) <+: a

/-- In every variable-length field position the two tuples are `NullSeparated`. -/
def TupleNullSeparated : (ks : List KeyTy) → Tuple ks → Tuple ks → Prop
  | [], _, _ => True
  | k :: ks, (v, vs), (w, ws) =>
    (k.len = none → ∀ a b, k.enc v = some a → k.enc w = some b → NullSeparated a b) ∧
    TupleNullSeparated ks vs ws

/-- Assumptions about the external `ordered_varint` crate: decoding inverts encoding, the encoding
is order preserving and prefix-free (its first byte determines its length). -/
structure LawfulVarint {α : Type} (c : Varint α) (lt : α → α → Prop) : Prop where
  dec_enc : ∀ v, c.dec (c.enc v) = some v
  order : ∀ v w, c.enc v < c.enc w ↔ lt v w
  prefixFree : ∀ v w, c.enc v <+: c.enc w → v = w

end Bonsai

namespace Bonsai

/-- The key types a schema can be built from: primitives, their combinations, tuples, derived
structs and enums.  Members of a composite must have the `LENGTH` they declare (which excludes
`Option` of a fixed-width type, see `C05_violated_option_field`) and enum discriminants must be
distinct (rustc enforces it). -/
inductive StdKey : KeyTy → Prop
  | uint (w : Nat) : StdKey (uintKey w)
  | int (w : Nat) : StdKey (intKey w)
  | nonZero (w : Nat) : StdKey (nonZeroKey w)
  | nonZeroInt (w : Nat) : StdKey (nonZeroIntKey w)
  | unit : StdKey unitKey
  | bool : StdKey boolKey
  | bytes : StdKey bytesKey
  | string : StdKey stringKey
  | array (n : Nat) : StdKey (arrayKey n)
  | varint {α : Type} (c : Varint α) (lt : α → α → Prop) (h : LawfulVarint c lt) :
      StdKey (varintKey c lt)
  | option {k : KeyTy} (h : StdKey k) : StdKey (optionKey k)
  | result {k e : KeyTy} (hk : StdKey k) (he : StdKey e) : StdKey (resultKey k e)
  | tuple (ks : List KeyTy) (h : ∀ k ∈ ks, StdKey k) (hl : ∀ k ∈ ks, HonestLen k) :
      StdKey (tupleKey ks)
  | struct (m : NullMode) (ks : List KeyTy) (h : ∀ k ∈ ks, StdKey k) (hl : ∀ k ∈ ks, HonestLen k) :
      StdKey (structKey m ks)
  | enum (m : NullMode) (d : EnumDesc) [DecidableEq d.repr.T]
      (hd : ∀ i j, d.disc i = d.disc j → i = j)
      (hr : StdKey d.repr) (hrl : HonestLen d.repr)
      (hf : ∀ i, ∀ k ∈ d.fields i, StdKey k) (hfl : ∀ i, ∀ k ∈ d.fields i, HonestLen k) :
      StdKey (enumKey m d)
  | unitEnum (d : EnumDesc) [DecidableEq d.repr.T]
      (hd : ∀ i j, d.disc i = d.disc j → i = j) (hr : StdKey d.repr) : StdKey (unitEnumKey d)

end Bonsai
