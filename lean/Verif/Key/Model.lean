import Verif.Key.Bytes

/-!
# Model of BonsaiDb key encodings

Models `crates/bonsaidb-core/src/key.rs` (the `Key` / `KeyEncoding` implementations) and the code
generated by `#[derive(Key)]` in `crates/bonsaidb-macros/src/lib.rs`.
-/

namespace Bonsai

/-- A Rust type with its `Key`/`KeyEncoding` implementation.

Models the traits `Key` and `KeyEncoding`, crates/bonsaidb-core/src/key.rs:53-137: `LENGTH`,
`as_ord_bytes` (an `Err` is `none`), `from_ord_bytes`.  Simplified: the borrowed / ephemeral /
owned distinction of `ByteSource` (key.rs:503-605) is dropped, only the bytes matter; `describe`
is not modelled.  `lt` is the strict part of the Rust type's own `Ord`, i.e. the order the user
expects (it is specification, not code). -/
structure KeyTy where
  T : Type
  len : Option Nat
  enc : T → Option Bytes
  dec : Bytes → Res T
  lt : T → T → Prop

/-! ## Fixed-width integers -/

/-- `to_be_bytes`: the `w`-byte big-endian representation of `n` (std). -/
def toBE : Nat → Nat → Bytes
  | 0, _ => []
  | w + 1, n => UInt8.ofNat (n / 256 ^ w) :: toBE w (n % 256 ^ w)

/-- `from_be_bytes` (std). -/
def fromBE : Bytes → Nat
  | [] => 0
  | b :: bs => b.toNat * 256 ^ bs.length + fromBE bs

/-- `as_ord_bytes` of a primitive integer of `w` bytes; key.rs:2399-2401.  Signed and unsigned
types share it: a signed value is given by its two's complement bit pattern. -/
def primEnc {w : Nat} (v : BitVec (8 * w)) : Bytes := toBE w v.toNat

/-- `from_ord_bytes` of a primitive integer; key.rs:2374-2376.  `try_into` fails unless the slice
has exactly `w` bytes. -/
def primDec (w : Nat) (b : Bytes) : Res (BitVec (8 * w)) :=
  if b.length = w then .ok (BitVec.ofNat _ (fromBE b)) else .err

/-- `u8 … u128` (`w = 1, 2, 4, 8, 16`); key.rs:2369-2414. -/
@[reducible] def uintKey (w : Nat) : KeyTy where
  T := BitVec (8 * w)
  len := some w
  enc v := some (primEnc v)
  dec := primDec w
  lt a b := a.toNat < b.toNat

/-- `i8 … i128`; key.rs:2369-2414, the same macro as for unsigned types. -/
@[reducible] def intKey (w : Nat) : KeyTy where
  T := BitVec (8 * w)
  len := some w
  enc v := some (primEnc v)
  dec := primDec w
  lt a b := a.toInt < b.toInt

/-- `NonZero*` unsigned types; key.rs:2416-2472: decoding zero is `ValueIsZero`. -/
@[reducible] def nonZeroKey (w : Nat) : KeyTy where
  T := { v : BitVec (8 * w) // v ≠ 0 }
  len := some w
  enc v := some (primEnc v.1)
  dec b := (primDec w b).bind fun v => if h : v ≠ 0 then .ok ⟨v, h⟩ else .err
  lt a b := a.1.toNat < b.1.toNat

/-- `NonZeroI*` types; key.rs:2416-2472. -/
@[reducible] def nonZeroIntKey (w : Nat) : KeyTy where
  T := { v : BitVec (8 * w) // v ≠ 0 }
  len := some w
  enc v := some (primEnc v.1)
  dec b := (primDec w b).bind fun v => if h : v ≠ 0 then .ok ⟨v, h⟩ else .err
  lt a b := a.1.toInt < b.1.toInt

/-! ### `first_value` / `next_value` -/

/-- Unsigned `checked_add(1)` wrapped in `next_value`; key.rs:2382-2384 (`none` = `WouldWrap`). -/
def uintNext {w : Nat} (v : BitVec (8 * w)) : Option (BitVec (8 * w)) :=
  if v.toNat + 1 < 2 ^ (8 * w) then some (BitVec.ofNat _ (v.toNat + 1)) else none

/-- Signed `checked_add(1)`; key.rs:2382-2384 (`none` = `WouldWrap`). -/
def intNext {w : Nat} (v : BitVec (8 * w)) : Option (BitVec (8 * w)) :=
  if 2 * (v.toInt + 1) < 2 ^ (8 * w) then some (BitVec.ofInt _ (v.toInt + 1)) else none

/-- `first_value` of primitives; key.rs:2378-2380. -/
def primFirst (w : Nat) : BitVec (8 * w) := 0

/-- `first_value` of NonZero types; key.rs:2426-2428. -/
def nonZeroFirst (w : Nat) : BitVec (8 * w) := 1

/-- `next_value` of unsigned NonZero types; key.rs:2430-2441. -/
def nonZeroNext {w : Nat} (v : BitVec (8 * w)) : Option (BitVec (8 * w)) :=
  (uintNext v).map fun n => if n = 0 then nonZeroFirst w else n

/-- `next_value` of signed NonZero types; key.rs:2430-2441 (−1 is followed by 1). -/
def nonZeroIntNext {w : Nat} (v : BitVec (8 * w)) : Option (BitVec (8 * w)) :=
  (intNext v).map fun n => if n = 0 then nonZeroFirst w else n

/-! ## Other primitive keys -/

/-- `()`; key.rs:1176-1199.  Decoding ignores its input. -/
@[reducible] def unitKey : KeyTy where
  T := Unit
  len := some 0
  enc _ := some []
  dec _ := .ok ()
  lt _ _ := False

/-- `bool`; key.rs:1201-1233. -/
@[reducible] def boolKey : KeyTy where
  T := Bool
  len := some 1
  enc v := some (if v then [1] else [0])
  dec b := match b with
    | [] => .ok false
    | x :: _ => .ok (if x = 0 then false else true)
  lt a b := a = false ∧ b = true

/-- Byte string keys: `Cow<[u8]>`, `Vec<u8>`, `Bytes`, `ArcBytes`; key.rs:631-656, 860-990. -/
@[reducible] def bytesKey : KeyTy where
  T := Bytes
  len := none
  enc v := some v
  dec b := .ok b
  lt a b := a < b

/-- UTF-8 bytes of a string (`as_bytes`). -/
def strBytes (s : String) : Bytes := s.toByteArray.data.toList

/-- `String`, `Cow<str>`; key.rs:1017-1057, 1123-1155.  `from_utf8` fails on invalid UTF-8.
Rust's `Ord for str` is the order of the bytes. -/
@[reducible] def stringKey : KeyTy where
  T := String
  len := none
  enc v := some (strBytes v)
  dec b := Res.ofOption (String.fromUTF8? ⟨b.toArray⟩)
  lt a b := strBytes a < strBytes b

/-- `[u8; N]` (key.rs:791-820) and, with `N = 16`, `uuid::Uuid` (key.rs:2104-2129). -/
@[reducible] def arrayKey (n : Nat) : KeyTy where
  T := { b : Bytes // b.length = n }
  len := some n
  enc v := some v.1
  dec b := if h : b.length = n then .ok ⟨b, h⟩ else .err
  lt a b := a.1 < b.1

/-- `Option<T>`; key.rs:2146-2200. -/
@[reducible] def optionKey (k : KeyTy) : KeyTy where
  T := Option k.T
  len := k.len.map (1 + ·)
  enc
    | none => some [0]
    | some v => (k.enc v).map (1 :: ·)
  dec
    | [] => .ok none
    | x :: b => if x = 0 then .ok none else (k.dec b).map some
  lt
    | none, some _ => True
    | some a, some b => k.lt a b
    | _, none => False

/-- `Result<T, E>`; key.rs:2202-2263.  `Except.ok` is Rust's `Ok`; `Ok < Err` in Rust. -/
@[reducible] def resultKey (k e : KeyTy) : KeyTy where
  T := Except e.T k.T
  len := none
  enc
    | .ok v => (k.enc v).map (0 :: ·)
    | .error v => (e.enc v).map (1 :: ·)
  dec
    | [] => (e.dec []).map .error
    | x :: b => if x = 0 then (k.dec b).map .ok else (e.dec b).map .error
  lt
    | .ok a, .ok b => k.lt a b
    | .ok _, .error _ => True
    | .error a, .error b => e.lt a b
    | .error _, .ok _ => False

/-! ## Composite keys -/

/-- The three null byte handling strategies; key.rs:1443-1465. -/
inductive NullMode where
  | escape | allow | deny
  deriving DecidableEq, Repr

/-- `EscapeNullBytes::handle_nulls`; key.rs:1528-1543: every 0 byte is doubled. -/
def escapeNulls : Bytes → Bytes
  | [] => []
  | b :: bs => if b = 0 then 0 :: 0 :: escapeNulls bs else b :: escapeNulls bs

/-- `EscapeNullBytes::decode_nulls_if_needed`; key.rs:1545-1583.  The loop that finds the next null
at `index`, requires `bytes[index+1] == 0`, removes one of the two and goes on behind them is
written as a recursion; a null not followed by a null is `todo!()`, a panic. -/
def unescapeNulls : Bytes → Res Bytes
  | [] => .ok []
  | [b] => if b = 0 then .panic else .ok [b]
  | b :: c :: bs =>
    if b = 0 then
      if c = 0 then (unescapeNulls bs).map (0 :: ·) else .panic
    else (unescapeNulls (c :: bs)).map (b :: ·)

/-- `CompositeKeyNullHandler::handle_nulls`; key.rs:1491-1500 (deny), 1513-1515 (allow),
1528-1543 (escape). -/
def handleNulls : NullMode → Bytes → Option Bytes
  | .escape, b => some (escapeNulls b)
  | .allow, b => some b
  | .deny, b => if (0 : UInt8) ∈ b then none else some b

/-- `CompositeKeyNullHandler::decode_nulls_if_needed`; key.rs:1502-1508, 1517-1523, 1545-1583. -/
def decodeNulls : NullMode → Bytes → Res Bytes
  | .escape, b => unescapeNulls b
  | .allow, b => .ok b
  | .deny, b => .ok b

/-- `CompositeKeyEncoder`: the bytes so far and the lengths of the variable fields; key.rs:1329-1333. -/
structure Enc where
  bytes : Bytes := []
  lens : List Nat := []

/-- `CompositeKeyEncoder::encode`; key.rs:1358-1375. -/
def Enc.encode (m : NullMode) (k : KeyTy) (e : Enc) (v : k.T) : Option Enc :=
  match k.enc v with
  | none => none
  | some b =>
    match k.len with
    | some _ => some { e with bytes := e.bytes ++ b }
    | none =>
      match handleNulls m b with
      | none => none
      | some b' =>
        if b'.length ≤ 65535 then
          some { bytes := e.bytes ++ b' ++ [0], lens := e.lens ++ [b'.length] }
        else none

/-- The variable-length encoding of one field length; key.rs:1384-1399.  Shifts and masks are
written as division and remainder by powers of two, `| 0x80` of a 7-bit value as `+ 128`. -/
def lenBytes (l : Nat) : Bytes :=
  if l ≤ 0x7F then [UInt8.ofNat l]
  else if l ≤ 0x3FFF then [UInt8.ofNat (l / 128), UInt8.ofNat (l % 128 + 128)]
  else [UInt8.ofNat (l / 16384), UInt8.ofNat (l / 128 % 128 + 128), UInt8.ofNat (l % 128 + 128)]

/-- `CompositeKeyEncoder::finish`; key.rs:1380-1402. -/
def Enc.finish (e : Enc) : Bytes := e.bytes ++ e.lens.reverse.flatMap lenBytes

/-- The values of a tuple of key types. -/
@[reducible] def Tuple : List KeyTy → Type
  | [] => Unit
  | k :: ks => k.T × Tuple ks

/-- The sequence of `encoder.encode(&field)?` calls; key.rs:1277 and macros/src/lib.rs:547-600. -/
def encodeFields (m : NullMode) : (ks : List KeyTy) → Enc → Tuple ks → Option Enc
  | [], e, _ => some e
  | k :: ks, e, (v, vs) => (e.encode m k v).bind fun e' => encodeFields m ks e' vs

/-- Composite encoding of a tuple or of the fields of a derived struct; key.rs:1274-1280. -/
def encodeComposite (m : NullMode) (ks : List KeyTy) (v : Tuple ks) : Option Bytes :=
  (encodeFields m ks {} v).map Enc.finish

/-- `CompositeKeyDecoder` without its byte source; key.rs:1606-1611. -/
structure Dec where
  offset : Nat
  stop : Nat
  deriving DecidableEq

/-- Reading a length from the reversed tail; key.rs:1695-1722.  `|=` of disjoint bits is written as
`+`.  `usize` is 64 bits; a shift by 64 or more panics (overflow checks on).
Returns the length and the number of bytes used. -/
def readLen : Bytes → Nat → Nat → Res (Nat × Nat)
  | [], _, _ => .err
  | b :: bs, i, acc =>
    if 64 ≤ i * 7 then .panic
    else
      let acc := acc + (b.toNat % 128 * 2 ^ (i * 7)) % 2 ^ 64
      if b.toNat < 128 then .ok (acc, i + 1) else readLen bs (i + 1) acc

/-- `bytes[a..b]` for `a ≤ b ≤ len`. -/
def slice (bytes : Bytes) (a b : Nat) : Bytes := (bytes.drop a).take (b - a)

/-- The first half of `CompositeKeyDecoder::decode`: the field length; key.rs:1689-1722.
Slicing with `offset > end` panics. -/
def fieldLen (k : KeyTy) (bytes : Bytes) (d : Dec) : Res (Nat × Dec) :=
  match k.len with
  | some n => .ok (n, d)
  | none =>
    if d.stop < d.offset then .panic
    else (readLen (slice bytes d.offset d.stop).reverse 0 0).map
      fun (l, used) => (l, { d with stop := d.stop - used })

/-- `CompositeKeyDecoder::decode`; key.rs:1688-1743.  `offset + length` overflowing `usize`
panics. -/
def decodeField (m : NullMode) (k : KeyTy) (bytes : Bytes) (d : Dec) : Res (k.T × Dec) :=
  (fieldLen k bytes d).bind fun (l, d) =>
    if 2 ^ 64 ≤ d.offset + l then .panic
    else if d.offset + l ≤ d.stop then
      let raw := slice bytes d.offset (d.offset + l)
      match k.len with
      | some _ => (k.dec raw).map fun v => (v, { d with offset := d.offset + l })
      | none => (decodeNulls m raw).bind fun raw =>
          (k.dec raw).map fun v => (v, { d with offset := d.offset + l + 1 })
    else .err

/-- The sequence of `decoder.decode()?` calls; key.rs:1249. -/
def decodeFields (m : NullMode) : (ks : List KeyTy) → Bytes → Dec → Res (Tuple ks × Dec)
  | [], _, d => .ok ((), d)
  | k :: ks, bytes, d =>
    (decodeField m k bytes d).bind fun (v, d) =>
      (decodeFields m ks bytes d).map fun (vs, d) => ((v, vs), d)

/-- Decode all fields and `finish()` (key.rs:1746-1754: everything must be consumed);
key.rs:1247-1253. -/
def decodeComposite (m : NullMode) (ks : List KeyTy) (bytes : Bytes) : Res (Tuple ks) :=
  (decodeFields m ks bytes ⟨0, bytes.length⟩).bind fun (v, d) =>
    if d.offset = d.stop then .ok v else .err

/-- The order of tuples: field by field (Rust's `Ord` for tuples and derived `Ord` for structs). -/
def tupleLt : (ks : List KeyTy) → Tuple ks → Tuple ks → Prop
  | [], _, _ => False
  | k :: ks, (a, as), (b, bs) => k.lt a b ∨ a = b ∧ tupleLt ks as bs

/-- `LENGTH` of a tuple: the sum if all fields have one; key.rs:1262-1265. -/
def sumLen : List KeyTy → Option Nat
  | [] => some 0
  | k :: ks => match k.len, sumLen ks with
    | some a, some b => some (a + b)
    | _, _ => none

/-- Tuples `(T1, …, Tn)`; key.rs:1240-1284 (always the escaping encoder). -/
@[reducible] def tupleKey (ks : List KeyTy) : KeyTy where
  T := Tuple ks
  len := sumLen ks
  enc := encodeComposite .escape ks
  dec := decodeComposite .escape ks
  lt := tupleLt ks

/-- `#[derive(Key)]` on a struct with two or more fields; macros/src/lib.rs:505-590, 838-870:
as a tuple, but with the chosen null handling and always `LENGTH = None`.
(A struct with one field is transparent, lib.rs:459-500, and a unit struct behaves like `()`,
lib.rs:577-610; neither needs a separate model.) -/
@[reducible] def structKey (m : NullMode) (ks : List KeyTy) : KeyTy where
  T := Tuple ks
  len := none
  enc := encodeComposite m ks
  dec := decodeComposite m ks
  lt := tupleLt ks

/-- The description of an enum: discriminants in a representation type and fields per variant. -/
structure EnumDesc where
  n : Nat
  repr : KeyTy
  disc : Fin n → repr.T
  fields : Fin n → List KeyTy

/-- `match discriminant { const_0 => .., const_1 => .., _ => Err }`: the first variant with this
discriminant; macros/src/lib.rs:815-822. -/
def EnumDesc.find (d : EnumDesc) [DecidableEq d.repr.T] (x : d.repr.T) : Option (Fin d.n) :=
  (List.finRange d.n).find? fun i => d.disc i = x

/-- `#[derive(Key)]` on an enum with at least one variant with fields; macros/src/lib.rs:625-836:
the discriminant is the first composite field, then the variant's fields. -/
@[reducible] def enumKey (m : NullMode) (d : EnumDesc) [DecidableEq d.repr.T] : KeyTy where
  T := (i : Fin d.n) × Tuple (d.fields i)
  len := none
  enc := fun ⟨i, v⟩ =>
    ((Enc.encode m d.repr {} (d.disc i)).bind fun e => encodeFields m (d.fields i) e v).map Enc.finish
  dec := fun bytes =>
    (decodeField m d.repr bytes ⟨0, bytes.length⟩).bind fun (x, dd) =>
      match d.find x with
      | none => .err
      | some i => (decodeFields m (d.fields i) bytes dd).bind fun (v, dd) =>
          if dd.offset = dd.stop then .ok ⟨i, v⟩ else .err
  lt := fun a b => d.repr.lt (d.disc a.1) (d.disc b.1) ∨
    ∃ h : a.1 = b.1, tupleLt (d.fields b.1) (h ▸ a.2) b.2

/-- `#[derive(Key)]` on an enum without any fields: the discriminant alone, with the `LENGTH` of
the representation; macros/src/lib.rs:776-812. -/
@[reducible] def unitEnumKey (d : EnumDesc) [DecidableEq d.repr.T] : KeyTy where
  T := Fin d.n
  len := d.repr.len
  enc i := d.repr.enc (d.disc i)
  dec b := (d.repr.dec b).bind fun x => Res.ofOption (d.find x)
  lt a b := d.repr.lt (d.disc a) (d.disc b)

/-! ## External variable-length integers -/

/-- The external crate `ordered_varint` (not in the repository) as used by `Signed`, `Unsigned`,
`isize`, `usize`, `NonZeroIsize`, `NonZeroUsize`, `VarInt`, `EnumKey` and `Duration` keys:
key.rs:1893-2101, 2329-2365; key/varint.rs.  `α` is the integer type.  The codec is a parameter;
what is assumed of it is in `LawfulVarint`. -/
structure Varint (α : Type) where
  enc : α → Bytes
  dec : Bytes → Option α

/-- A key type encoded through the external codec; key.rs:1900-1935 and the like. -/
@[reducible] def varintKey {α : Type} (c : Varint α) (lt : α → α → Prop) : KeyTy where
  T := α
  len := none
  enc v := some (c.enc v)
  dec b := Res.ofOption (c.dec b)
  lt := lt

/-! ## Prefix ranges -/

/-- The end bound of a range of keys; the start bound of a prefix range is always included. -/
inductive EndBound where
  | excluded (b : Bytes)
  | unbounded
  deriving DecidableEq

/-- Membership of an encoded key in a range `start..end` as the storage engine evaluates it
(byte comparison). -/
def inRange (start : Bytes) (stop : EndBound) (k : Bytes) : Prop :=
  ¬ k < start ∧ match stop with
    | .excluded e => k < e
    | .unbounded => True

/-- `next_byte_sequence`; key.rs:617-629.  Works on the reversed bytes: pop the last byte, add one
unless it is 255. -/
def nextByteRev : Bytes → Option Bytes
  | [] => none
  | b :: rest => if b.toNat + 1 < 256 then some (UInt8.ofNat (b.toNat + 1) :: rest) else nextByteRev rest

/-- `next_byte_sequence`; key.rs:617-629. -/
def nextByteSequence (b : Bytes) : Option Bytes := (nextByteRev b.reverse).map List.reverse

/-- `to_prefix_range` for byte string keys; key.rs:679-693 (and 771-789, 886-900, 952-966). -/
def bytesPrefixEnd (b : Bytes) : EndBound :=
  match nextByteSequence b with
  | some e => .excluded e
  | none => .unbounded

/-- `char::try_from(next_char).unwrap()` of the successor of a char: skip the surrogates,
`none` past `char::MAX`; key.rs:1063-1068. -/
def nextChar (c : Char) : Option Char :=
  let n := c.toNat + 1
  let n := if n = 0xD800 then 0xE000 else n
  if n ≤ 0x10FFFF then some (Char.ofNat n) else none

/-- The loop over `char_indices().rev()`; key.rs:1062-1081, on the reversed characters. -/
def nextStrRev : List Char → Option (List Char)
  | [] => none
  | c :: rest => match nextChar c with
    | some d => some (d :: rest)
    | none => nextStrRev rest

/-- UTF-8 encoding of a list of characters. -/
def utf8 (cs : List Char) : Bytes := cs.flatMap String.utf8EncodeChar

/-- `to_prefix_range` for strings; key.rs:1059-1087 and 1089-1121. -/
def strPrefixEnd (s : String) : EndBound :=
  match nextStrRev s.toList.reverse with
  | some cs => .excluded (utf8 cs.reverse)
  | none => .unbounded

end Bonsai
