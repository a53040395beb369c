import Verif.Key.Prims

/-!
# Properties C01 – C09: key encodings

Every theorem is stated with the vocabulary of `Verif.Key.Spec`.  `example`s show that hypotheses
are met by concrete key types and values.
-/

set_option linter.unusedSimpArgs false

namespace Bonsai

/-! ## C01 – unsigned integers -/

/-- C01: for every width the encoding has the declared length, sorts as the numbers do, decodes to
the value, and every byte string of another length is rejected (while every byte string of the right
length is accepted and is the encoding of the value decoded). -/
theorem C01_unsigned_keys (w : Nat) :
    SortsCorrectly (uintKey w) ∧ RoundTrips (uintKey w) ∧ HonestLen (uintKey w) ∧
    (∀ b : Bytes, b.length ≠ w → (uintKey w).dec b = .err) ∧
    (∀ b : Bytes, b.length = w → ∃ v, (uintKey w).dec b = .ok v ∧ (uintKey w).enc v = some b) := by
  refine ⟨uint_sorts w, uint_rt w, uint_honest w, ?_, ?_⟩
  · intro b h; exact if_neg h
  · intro b h
    obtain ⟨v, h1, h2⟩ := primDec_of_length h
    exact ⟨v, h1, congrArg some h2⟩

/-- The order in C01 spelled out for `u32`-like types: bytes compare as numbers. -/
theorem C01_order_explicit (w : Nat) (a b : BitVec (8 * w)) :
    primEnc a < primEnc b ↔ a.toNat < b.toNat := primEnc_lt_iff a b

example : (uintKey 4).enc (258 : BitVec 32) = some [0, 0, 1, 2] := by decide
example : (uintKey 4).dec [0, 0, 1, 2] = .ok (258 : BitVec 32) := by decide
example : (uintKey 4).dec [0, 1, 2] = .err := by decide

/-! ## C02 – signed integers -/

/-- C02 fails: in every signed type −1 sorts after 0 (`to_be_bytes` without flipping the sign bit). -/
theorem C02_violated (w : Nat) (hw : 0 < w) :
    ∃ (v u : BitVec (8 * w)) (a b : Bytes), v.toInt = -1 ∧ u.toInt = 0 ∧
      (intKey w).enc v = some a ∧ (intKey w).enc u = some b ∧ b < a := by
  refine ⟨BitVec.allOnes (8 * w), 0#(8 * w), _, _, ?_, by simp, rfl, rfl, ?_⟩
  · rw [BitVec.toInt_allOnes]; simp [hw]
  · have : 2 ≤ 2 ^ (8 * w) := by
      have : 2 ^ 1 ≤ 2 ^ (8 * w) := Nat.pow_le_pow_right (by decide) (by omega)
      simpa using this
    exact (primEnc_lt_iff _ _).mpr (by rw [BitVec.toNat_allOnes]; simp; omega)

/-- Hence no signed integer key type (of at least one byte) sorts correctly. -/
theorem C02_never_sorts (w : Nat) (hw : 0 < w) : ¬ SortsCorrectly (intKey w) := by
  intro h
  obtain ⟨v, u, a, b, hv, hu, ha, hb, hlt⟩ := C02_violated w hw
  have : u.toInt < v.toInt := (h u v b a hb ha).mp hlt
  omega

/-- The part of C02 that holds: integers of the same sign sort correctly.  Missing: integers of
different signs, for which the order is reversed. -/
theorem C02_signed_keys_partial (w : Nat) (v u : BitVec (8 * w)) (a b : Bytes)
    (hs : (0 ≤ v.toInt) ↔ (0 ≤ u.toInt))
    (ha : (intKey w).enc v = some a) (hb : (intKey w).enc u = some b) :
    a < b ↔ v.toInt < u.toInt := by
  cases ha; cases hb
  refine (primEnc_lt_iff v u).trans ?_
  rw [BitVec.toInt_eq_toNat_cond] at hs ⊢
  rw [BitVec.toInt_eq_toNat_cond] at hs ⊢
  have h1 := v.isLt
  have h2 := u.isLt
  generalize 2 ^ (8 * w) = p at *
  by_cases hv : 2 * v.toNat < p <;> by_cases hu : 2 * u.toNat < p <;>
    simp only [hv, hu, if_true, if_false] at hs ⊢ <;> omega

/-- And with different signs the order is exactly reversed. -/
theorem C02_mixed_signs_reversed (w : Nat) (v u : BitVec (8 * w)) (a b : Bytes)
    (hv : v.toInt < 0) (hu : 0 ≤ u.toInt)
    (ha : (intKey w).enc v = some a) (hb : (intKey w).enc u = some b) : b < a := by
  cases ha; cases hb
  refine (primEnc_lt_iff u v).mpr ?_
  rw [BitVec.toInt_eq_toNat_cond] at hv hu
  have h1 := v.isLt
  have h2 := u.isLt
  generalize 2 ^ (8 * w) = p at *
  split at hv <;> split at hu <;> omega

/-- Signed integers still round-trip and reject wrong lengths. -/
theorem C02_signed_round_trip (w : Nat) :
    RoundTrips (intKey w) ∧ HonestLen (intKey w) ∧
    ∀ b : Bytes, b.length ≠ w → (intKey w).dec b = .err :=
  ⟨int_rt w, int_honest w, fun _ h => if_neg h⟩

example : (intKey 4).enc (-1 : BitVec 32) = some [255, 255, 255, 255] := by decide

/-! ## C03 – round trips of all key types -/

theorem std_rt {k : KeyTy} (h : StdKey k) : RoundTrips k := by
  induction h with
  | uint w => exact uint_rt w
  | int w => exact int_rt w
  | nonZero w => exact nonZero_rt w
  | nonZeroInt w => exact nonZeroInt_rt w
  | unit => exact unit_rt
  | bool => exact bool_rt
  | bytes => exact bytes_rt
  | string => exact string_rt
  | array n => exact array_rt n
  | varint c lt h => exact varint_rt h
  | option _ ih => exact option_rt ih
  | result _ _ ih1 ih2 => exact result_rt ih1 ih2
  | tuple ks _ hl ih => exact fun v b hv hb =>
      decodeComposite_encodeComposite (fun k hk => ⟨ih k hk, hl k hk⟩) hv hb
  | struct m ks _ hl ih => exact fun v b hv hb =>
      decodeComposite_encodeComposite (fun k hk => ⟨ih k hk, hl k hk⟩) hv hb
  | enum m d hd _ hrl _ hfl ih1 ih2 => exact enum_rt hd ⟨ih1, hrl⟩ (fun i k hk => ⟨ih2 i k hk, hfl i k hk⟩)
  | unitEnum d hd _ ih => exact unitEnum_rt hd ih

/-- C03 (and C05 for nested composites): every key type of the grammar round-trips and distinct keys
have distinct encodings. -/
theorem C03_round_trip {k : KeyTy} (h : StdKey k) : RoundTrips k ∧ Injective k := by
  refine ⟨std_rt h, fun v w b hl hv hw => ?_⟩
  have h1 := std_rt h v b hv hl
  have h2 := std_rt h w b hw hl
  rw [h1] at h2
  cases h2; rfl

/-- C03: decoders reject byte strings of the wrong length, zero for NonZero types and invalid UTF-8
for strings. -/
theorem C03_rejections (w : Nat) (b : Bytes) :
    (b.length ≠ w → (uintKey w).dec b = .err ∧ (intKey w).dec b = .err ∧
      (nonZeroKey w).dec b = .err ∧ (nonZeroIntKey w).dec b = .err ∧ (arrayKey w).dec b = .err) ∧
    ((nonZeroKey w).dec (List.replicate w 0) = .err ∧
      (nonZeroIntKey w).dec (List.replicate w 0) = .err) ∧
    (¬ (ByteArray.mk b.toArray).IsValidUTF8 → stringKey.dec b = .err) := by
  refine ⟨fun h => ?_, ?_, fun h => ?_⟩
  · simp [uintKey, intKey, nonZeroKey, nonZeroIntKey, arrayKey, primDec, h]
  · have hz : primDec w (List.replicate w 0) = .ok 0#(8 * w) := by
      have : fromBE (List.replicate w 0) = 0 := by
        induction w with
        | zero => rfl
        | succ w ih => simp [List.replicate_succ, fromBE, ih]
      simp [primDec, this]
    have : ¬ (0#(8 * w) ≠ 0) := by simp
    constructor
    · simp only [nonZeroKey, hz, Res.bind_ok, dif_neg this]
    · simp only [nonZeroIntKey, hz, Res.bind_ok, dif_neg this]
  · simp [stringKey, String.fromUTF8?, h, Res.ofOption]

/-- A non-trivial member of the grammar: `(Option<String>, Result<u16, Vec<u8>>, bool)`. -/
example : StdKey (tupleKey [optionKey stringKey, resultKey (uintKey 2) bytesKey, boolKey]) := by
  refine .tuple _ ?_ ?_
  · intro k hk
    simp only [List.mem_cons, List.not_mem_nil, or_false] at hk
    rcases hk with rfl | rfl | rfl
    · exact .option .string
    · exact .result (.uint 2) .bytes
    · exact .bool
  · intro k hk
    simp only [List.mem_cons, List.not_mem_nil, or_false] at hk
    rcases hk with rfl | rfl | rfl
    · exact honest_of_none rfl
    · exact honest_of_none rfl
    · exact bool_honest

/-! ## C04 – order of composite keys -/

/-- C04 fails: `("a", "b") < ("a\0", "a")` but the encodings compare the other way round, with the
default (escaping) null handling. -/
theorem C04_violated :
    ∃ (v w : Tuple [bytesKey, bytesKey]) (a b : Bytes),
      tupleLt [bytesKey, bytesKey] v w ∧
      (tupleKey [bytesKey, bytesKey]).enc v = some a ∧
      (tupleKey [bytesKey, bytesKey]).enc w = some b ∧ b < a := by
  refine ⟨([97], [98], ()), ([97, 0], [97], ()), [97, 0, 98, 0, 1, 1], [97, 0, 0, 0, 97, 0, 1, 3],
    .inl ?_, by decide, by decide, by decide⟩
  show ([97] : Bytes) < [97, 0]
  decide

/-- The part of C04 that holds for every null handling: if in each variable-length field neither
value's bytes are the other's followed by a null byte, the encodings sort as the tuples do.
Missing: values that differ first in a field where one is the other plus a null byte. -/
theorem C04_composite_order_partial {m : NullMode} {ks : List KeyTy}
    (hk : ∀ k ∈ ks, SortsCorrectly k ∧ (k.len ≠ none → PrefixFree k) ∧ TotallyOrdered k)
    (v w : Tuple ks) (a b : Bytes) (ha : encodeComposite m ks v = some a)
    (hb : encodeComposite m ks w = some b) (hsep : TupleNullSeparated ks v w) :
    a < b ↔ tupleLt ks v w :=
  encodeComposite_lt_iff hk ha hb (.inr hsep)

/-- With `null_handling = deny`, C04 holds in full. -/
theorem C04_composite_order_deny {ks : List KeyTy}
    (hk : ∀ k ∈ ks, SortsCorrectly k ∧ (k.len ≠ none → PrefixFree k) ∧ TotallyOrdered k) :
    SortsCorrectly (structKey .deny ks) :=
  fun _ _ _ _ ha hb => encodeComposite_lt_iff hk ha hb (.inl rfl)

/-- If no field has variable length, C04 holds in full for tuples and derived structs. -/
theorem C04_composite_order_fixed {m : NullMode} {ks : List KeyTy}
    (hk : ∀ k ∈ ks, SortsCorrectly k ∧ k.len ≠ none ∧ PrefixFree k ∧ TotallyOrdered k) :
    SortsCorrectly (structKey m ks) ∧ SortsCorrectly (tupleKey ks) := by
  have hsep : ∀ (ks : List KeyTy), (∀ k ∈ ks, k.len ≠ none) → ∀ v w : Tuple ks,
      TupleNullSeparated ks v w := by
    intro ks
    induction ks with
    | nil => intros; trivial
    | cons k ks ih =>
      intro h v w
      exact ⟨fun hl => absurd hl (h k (by simp)), ih (fun k' h' => h k' (by simp [h'])) _ _⟩
  have hk' : ∀ k ∈ ks, SortsCorrectly k ∧ (k.len ≠ none → PrefixFree k) ∧ TotallyOrdered k :=
    fun k h => ⟨(hk k h).1, fun _ => (hk k h).2.2.1, (hk k h).2.2.2⟩
  exact ⟨fun v w a b ha hb => encodeComposite_lt_iff hk' ha hb (.inr (hsep ks (fun k h => (hk k h).2.1) v w)),
    fun v w a b ha hb => encodeComposite_lt_iff hk' ha hb (.inr (hsep ks (fun k h => (hk k h).2.1) v w))⟩

/-- Derived enums: values of different variants sort by discriminant, values of the same variant by
their fields (same restriction on nulls). -/
theorem C04_enum_order_partial {m : NullMode} {d : EnumDesc} [DecidableEq d.repr.T]
    (hd : ∀ i j, d.disc i = d.disc j → i = j)
    (hr : SortsCorrectly d.repr ∧ PrefixFree d.repr ∧ TotallyOrdered d.repr)
    (hk : ∀ i, ∀ k ∈ d.fields i,
      SortsCorrectly k ∧ (k.len ≠ none → PrefixFree k) ∧ TotallyOrdered k)
    (v w : (enumKey m d).T) (a b : Bytes)
    (ha : (enumKey m d).enc v = some a) (hb : (enumKey m d).enc w = some b)
    (hsep : ∀ h : v.1 = w.1, TupleNullSeparated (d.fields w.1) (h ▸ v.2) w.2) :
    a < b ↔ (enumKey m d).lt v w := by
  obtain ⟨i, v⟩ := v
  obtain ⟨j, w⟩ := w
  rw [enumEnc_eq] at ha hb
  have sepOf : ∀ {x y : d.repr.T}, d.repr.len = none → ∀ p q, d.repr.enc x = some p →
      d.repr.enc y = some q → NullSeparated p q := by
    intro x y _ p q hp hq
    constructor
    · intro hpre
      have hxy := hr.2.1 x y p q hp hq ((List.prefix_append _ _).trans hpre)
      subst hxy
      rw [hp] at hq; cases hq
      have := hpre.length_le; simp at this; omega
    · intro hpre
      have hxy := hr.2.1 y x q p hq hp ((List.prefix_append _ _).trans hpre)
      subst hxy
      rw [hp] at hq; cases hq
      have := hpre.length_le; simp at this; omega
  have strict : ∀ (i j : Fin d.n) (v : Tuple (d.fields i)) (w : Tuple (d.fields j)) (a b : Bytes),
      encodeComposite m (d.repr :: d.fields i) (d.disc i, v) = some a →
      encodeComposite m (d.repr :: d.fields j) (d.disc j, w) = some b →
      d.repr.lt (d.disc i) (d.disc j) → a < b := by
    intro i j v w a b ha hb hlt
    rw [encodeComposite_eq, Option.map_eq_some_iff] at ha hb
    obtain ⟨p, hp, rfl⟩ := ha
    obtain ⟨q, hq, rfl⟩ := hb
    simp only [pieces, Option.bind_eq_some_iff, Option.map_eq_some_iff] at hp hq
    obtain ⟨p1, hp1, p2, _, rfl⟩ := hp
    obtain ⟨q1, hq1, q2, _, rfl⟩ := hq
    simp only [List.append_assoc]
    exact piece_lt hr.1 (fun _ => hr.2.1) hr.2.2.2.1 hlt (.inr sepOf) hp1 hq1 _ _
  by_cases hij : i = j
  · subst hij
    have := encodeComposite_lt_iff (m := m) (ks := d.repr :: d.fields i)
      (by
        intro k hk'
        rcases List.mem_cons.mp hk' with rfl | hk'
        · exact ⟨hr.1, fun _ => hr.2.1, hr.2.2⟩
        · exact hk i k hk') ha hb (.inr ⟨sepOf, hsep rfl⟩)
    rw [this]
    simp only [tupleLt, enumKey]
    constructor
    · rintro (h | ⟨_, h⟩)
      · exact .inl h
      · exact .inr ⟨trivial, h⟩
    · rintro (h | ⟨_, h⟩)
      · exact .inl h
      · exact .inr ⟨trivial, h⟩
  · constructor
    · intro hab
      rcases hr.2.2.1 (d.disc i) (d.disc j) with h | h | h
      · exact .inl h
      · exact absurd (hd _ _ h) hij
      · exact absurd hab (bytes_lt_asymm (strict j i w v b a hb ha h))
    · rintro (h | ⟨h, _⟩)
      · exact strict i j v w a b ha hb h
      · exact absurd h hij

/-- The hypotheses of C04 hold for the primitive key types (not for signed integers, see C02). -/
theorem C04_field_types (w n : Nat) (hw : w < 2 ^ 64) (hn : n < 2 ^ 64) :
    ∀ k ∈ [uintKey w, nonZeroKey w, unitKey, boolKey, bytesKey, stringKey, arrayKey n,
        optionKey (uintKey w), optionKey stringKey, resultKey (uintKey w) stringKey],
      SortsCorrectly k ∧ (k.len ≠ none → PrefixFree k) ∧ TotallyOrdered k := by
  intro k hk
  simp only [List.mem_cons, List.not_mem_nil, or_false] at hk
  rcases hk with rfl | rfl | rfl | rfl | rfl | rfl | rfl | rfl | rfl | rfl
  · exact ⟨uint_sorts w, fun _ => prefixFree_of_honest rfl hw (uint_rt w) (uint_honest w), uint_total w⟩
  · exact ⟨nonZero_sorts w, fun _ => prefixFree_of_honest rfl hw (nonZero_rt w) (nonZero_honest w), nonZero_total w⟩
  · exact ⟨unit_sorts, fun _ => prefixFree_of_honest rfl (by decide) unit_rt unit_honest, unit_total⟩
  · exact ⟨bool_sorts, fun _ => prefixFree_of_honest rfl (by decide) bool_rt bool_honest, bool_total⟩
  · exact ⟨bytes_sorts, fun h => absurd rfl h, bytes_total⟩
  · exact ⟨string_sorts, fun h => absurd rfl h, string_total⟩
  · exact ⟨array_sorts n, fun _ => prefixFree_of_honest rfl hn (array_rt n) (array_honest n), array_total n⟩
  · exact ⟨option_sorts (uint_sorts w),
      fun _ => option_prefixFree (prefixFree_of_honest rfl hw (uint_rt w) (uint_honest w)),
      option_total (uint_total w)⟩
  · exact ⟨option_sorts string_sorts, fun h => absurd rfl h, option_total string_total⟩
  · exact ⟨result_sorts (uint_sorts w) string_sorts, fun h => absurd rfl h,
      result_total (uint_total w) string_total⟩

/-- A concrete pair meeting `TupleNullSeparated`, with a null byte inside a field. -/
example : TupleNullSeparated [bytesKey, uintKey 1] ([97, 0, 1], (3 : BitVec 8), ()) ([97, 2], (1 : BitVec 8), ()) := by
  refine ⟨fun _ a b ha hb => ?_, fun h => (by cases h), trivial⟩
  cases ha; cases hb
  constructor <;> decide

/-! ## C05 – composite keys round-trip -/

/-- C05: decoding a successfully encoded composite yields the fields and consumes all input. -/
theorem C05_composite_round_trip {m : NullMode} {ks : List KeyTy}
    (hk : ∀ k ∈ ks, RoundTrips k ∧ HonestLen k) (v : Tuple ks) (b : Bytes)
    (h : encodeComposite m ks v = some b) (hb : b.length < 2 ^ 64) :
    decodeComposite m ks b = .ok v :=
  decodeComposite_encodeComposite hk h hb

/-- C05: encoding fails exactly when a field's own encoding fails, or a variable-length field takes
more than 65535 bytes (nulls doubled when escaping) or contains a null under `deny`. -/
theorem C05_encoding_failure {m : NullMode} {ks : List KeyTy} (v : Tuple ks) :
    encodeComposite m ks v = none ↔
      ∃ f ∈ fieldsOf ks v, f.1.enc f.2 = none ∨ ∃ b, f.1.enc f.2 = some b ∧ f.1.len = none ∧
        ((m = .deny ∧ (0 : UInt8) ∈ b) ∨ 65535 < storedLength m b) := by
  rw [encodeComposite_eq, Option.map_eq_none_iff, pieces_none_iff]
  constructor
  · rintro ⟨f, hf, h⟩; exact ⟨f, hf, piece_none_iff.mp h⟩
  · rintro ⟨f, hf, h⟩; exact ⟨f, hf, piece_none_iff.mpr h⟩

/-- C05 fails for `Option` of a fixed-width type inside a tuple: `(None::<u8>, 5u8)` encodes to two
bytes but decoding reports an error, because `LENGTH` claims two bytes for the option. -/
theorem C05_violated_option_field :
    ∃ (v : Tuple [optionKey (uintKey 1), uintKey 1]) (b : Bytes),
      encodeComposite .escape [optionKey (uintKey 1), uintKey 1] v = some b ∧
      b.length < 2 ^ 64 ∧ decodeComposite .escape [optionKey (uintKey 1), uintKey 1] b = .err := by
  refine ⟨(none, (5 : BitVec 8), ()), [0, 5], by decide, by decide, by rfl⟩

example : encodeComposite .escape [bytesKey, uintKey 2] ([97, 0], (7 : BitVec 16), ())
    = some [97, 0, 0, 0, 0, 7, 3] := by decide

/-! ## C06 – decoding untrusted bytes -/

/-- C06 fails: decoding the single byte `00` as `(Vec<u8>, Vec<u8>)` (or two strings) panics by slicing
`bytes[1..0]`. -/
theorem C06_violated_slice :
    (tupleKey [bytesKey, bytesKey]).dec [0] = .panic ∧
    (tupleKey [stringKey, stringKey]).dec [0] = .panic := by
  constructor
  · rfl
  · have hf : String.fromUTF8? ⟨#[]⟩ = some "" := fromUTF8_strBytes ""
    simp [decodeComposite, decodeFields, decodeField, fieldLen, slice, readLen, decodeNulls,
      unescapeNulls, hf, Res.ofOption]

/-- C06 fails: a null byte that is not doubled inside an escaped field reaches `todo!()`. -/
theorem C06_violated_todo : (tupleKey [bytesKey]).dec [0, 65, 0, 2] = .panic := by rfl

/-- The part of C06 that holds: primitives, options and results never panic if their parts do not,
and composites of fixed-width fields never panic (for inputs that fit in memory). Missing:
variable-length fields inside composites. -/
theorem C06_no_panic_partial :
    (∀ w, NeverPanics (uintKey w) ∧ NeverPanics (intKey w) ∧ NeverPanics (nonZeroKey w) ∧
      NeverPanics (nonZeroIntKey w) ∧ NeverPanics (arrayKey w)) ∧
    (NeverPanics unitKey ∧ NeverPanics boolKey ∧ NeverPanics bytesKey ∧ NeverPanics stringKey) ∧
    (∀ k, NeverPanics k → NeverPanics (optionKey k)) ∧
    (∀ k e, NeverPanics k → NeverPanics e → NeverPanics (resultKey k e)) ∧
    (∀ (m : NullMode) (ks : List KeyTy) (n : Nat), sumLen ks = some n → (∀ k ∈ ks, NeverPanics k) →
      ∀ b : Bytes, b.length + n < 2 ^ 64 → decodeComposite m ks b ≠ .panic) := by
  refine ⟨fun w => ⟨primDec_ne_panic w, primDec_ne_panic w, ?_, ?_, ?_⟩, ⟨?_, ?_, ?_, ?_⟩, ?_, ?_, ?_⟩
  · intro b
    simp only [nonZeroKey]
    have := primDec_ne_panic w b
    cases h : primDec w b with
    | panic => exact absurd h this
    | err => simp
    | ok v => simp only [Res.bind_ok]; split <;> simp
  · intro b
    simp only [nonZeroIntKey]
    have := primDec_ne_panic w b
    cases h : primDec w b with
    | panic => exact absurd h this
    | err => simp
    | ok v => simp only [Res.bind_ok]; split <;> simp
  · intro b; simp only [arrayKey]; split <;> simp
  · intro b; simp [unitKey]
  · intro b; cases b <;> simp [boolKey]
  · intro b; simp [bytesKey]
  · intro b; exact ofOption_ne_panic _
  · intro k hk b
    cases b with
    | nil => simp [optionKey]
    | cons x b =>
      simp only [optionKey]
      split
      · simp
      · exact map_ne_panic (hk b)
  · intro k e hk he b
    cases b with
    | nil => exact map_ne_panic (he [])
    | cons x b =>
      simp only [resultKey]
      split
      · exact map_ne_panic (hk b)
      · exact map_ne_panic (he b)
  · intro m ks n hn hk b hb
    have := decodeFields_fixed_ne_panic (m := m) hn hk b ⟨0, b.length⟩ hb (Nat.zero_le _)
    unfold decodeComposite
    cases h : decodeFields m ks b ⟨0, b.length⟩ with
    | panic => exact absurd h this.1
    | err => simp
    | ok r => simp only [Res.bind_ok]; split <;> simp

example : sumLen [uintKey 4, boolKey, arrayKey 16] = some 21 := by decide

/-! ## C07, C08 – prefix ranges -/

/-- C07: a byte-string key is in the prefix range iff it starts with the prefix. -/
theorem C07_bytes_prefix_range (p k : Bytes) :
    inRange p (bytesPrefixEnd p) k ↔ p <+: k := by
  have := nextRev_spec byteSucc_law p.reverse k
  rw [List.reverse_reverse, ← nextByteRev_eq] at this
  rw [← this]
  unfold inRange bytesPrefixEnd nextByteSequence
  cases nextByteRev p.reverse <;> simp

example : inRange [1, 255] (bytesPrefixEnd [1, 255]) [1, 255, 255, 255, 7] ∧
    ¬ inRange [1, 255] (bytesPrefixEnd [1, 255]) [2] := by
  constructor
  · rw [C07_bytes_prefix_range]; decide
  · rw [C07_bytes_prefix_range]; decide

/-- C08: a string key is in the prefix range (bytes compared) iff the string starts with the prefix. -/
theorem C08_string_prefix_range (p s : String) :
    inRange (strBytes p) (strPrefixEnd p) (strBytes s) ↔ p.toList <+: s.toList := by
  have := nextRev_spec nextChar_law p.toList.reverse s.toList
  rw [List.reverse_reverse, ← nextStrRev_eq] at this
  rw [← this]
  unfold inRange strPrefixEnd
  rw [strBytes_eq, strBytes_eq, utf8_lt_iff]
  cases nextStrRev p.toList.reverse with
  | none => simp
  | some e => simp [utf8_lt_iff]

example : nextChar (Char.ofNat 0xD7FF) = some (Char.ofNat 0xE000) := by decide
example : nextChar (Char.ofNat 0x10FFFF) = none := by decide

/-! ## C09 – next ids -/

/-- C09 for unsigned integers: the least larger value, or an error at the maximum. -/
theorem C09_next_unsigned (w : Nat) (v : BitVec (8 * w)) :
    (∀ n, uintNext v = some n → v.toNat < n.toNat ∧ ∀ x : BitVec (8 * w), v.toNat < x.toNat → n.toNat ≤ x.toNat) ∧
    (uintNext v = none → ∀ x : BitVec (8 * w), x.toNat ≤ v.toNat) ∧
    (∀ x : BitVec (8 * w), (primFirst w).toNat ≤ x.toNat) := by
  refine ⟨fun n h => ?_, fun h x => ?_, fun x => by simp [primFirst]⟩
  · unfold uintNext at h
    split at h
    · cases h
      rename_i hlt
      rw [BitVec.toNat_ofNat, Nat.mod_eq_of_lt hlt]
      exact ⟨by omega, fun x hx => by omega⟩
    · cases h
  · unfold uintNext at h
    split at h
    · cases h
    · have := x.isLt; omega

theorem toInt_range {n : Nat} (v : BitVec n) :
    -(2 ^ n : Nat) ≤ 2 * v.toInt ∧ 2 * v.toInt < (2 ^ n : Nat) := by
  have h := v.isLt
  rw [BitVec.toInt_eq_toNat_cond]
  split <;> omega

theorem toInt_ofInt_range {n : Nat} (hn : 0 < n) {i : Int} (h1 : -(2 ^ n : Nat) ≤ 2 * i)
    (h2 : 2 * i < (2 ^ n : Nat)) : (BitVec.ofInt n i).toInt = i := by
  obtain ⟨m, rfl⟩ : ∃ m, n = m + 1 := ⟨n - 1, by omega⟩
  rw [BitVec.toInt_ofInt]
  have e : 2 ^ (m + 1) = 2 * 2 ^ m := by rw [Nat.pow_succ, Nat.mul_comm]
  apply Int.bmod_eq_of_le_mul_two
  · rw [Int.mul_comm]; exact h1
  · rw [Int.mul_comm]; exact h2

/-- C09 for signed integers (in numeric order): the least larger value, or an error at the
maximum.  `first_value` is 0, not the minimum. -/
theorem C09_next_signed (w : Nat) (hw : 0 < w) (v : BitVec (8 * w)) :
    (∀ n, intNext v = some n → v.toInt < n.toInt ∧ ∀ x : BitVec (8 * w), v.toInt < x.toInt → n.toInt ≤ x.toInt) ∧
    (intNext v = none → ∀ x : BitVec (8 * w), x.toInt ≤ v.toInt) ∧
    (primFirst w).toInt = 0 := by
  have hv := toInt_range v
  refine ⟨fun n h => ?_, fun h x => ?_, by simp [primFirst]⟩
  · unfold intNext at h
    split at h
    · cases h
      rename_i hlt
      rw [toInt_ofInt_range (by omega) (by omega) (by exact_mod_cast hlt)]
      exact ⟨by omega, fun x hx => by omega⟩
    · cases h
  · unfold intNext at h
    split at h
    · cases h
    · rename_i hnl
      have hx := toInt_range x
      have : ¬ 2 * (v.toInt + 1) < ((2 ^ (8 * w) : Nat) : Int) := by exact_mod_cast hnl
      omega

/-- C09 for unsigned NonZero types: as above among the non-zero values, starting at 1. -/
theorem C09_next_nonzero_unsigned (w : Nat) (v : BitVec (8 * w)) (_hv : v ≠ 0) :
    (∀ n, nonZeroNext v = some n → n ≠ 0 ∧ v.toNat < n.toNat ∧
      ∀ x : BitVec (8 * w), x ≠ 0 → v.toNat < x.toNat → n.toNat ≤ x.toNat) ∧
    (nonZeroNext v = none → ∀ x : BitVec (8 * w), x.toNat ≤ v.toNat) ∧
    (∀ x : BitVec (8 * w), x ≠ 0 → (nonZeroFirst w).toNat ≤ x.toNat) := by
  have h9 := C09_next_unsigned w v
  refine ⟨fun n h => ?_, fun h => ?_, fun x hx => ?_⟩
  · simp only [nonZeroNext, Option.map_eq_some_iff] at h
    obtain ⟨n', hn', rfl⟩ := h
    have hlt := h9.1 n' hn'
    have : n' ≠ 0 := by
      rintro rfl
      have h0 := hlt.1
      simp at h0
    rw [if_neg this]
    exact ⟨this, hlt.1, fun x _ => hlt.2 x⟩
  · simp only [nonZeroNext, Option.map_eq_none_iff] at h
    exact h9.2.1 h
  · have : x.toNat ≠ 0 := fun h => hx (BitVec.eq_of_toNat_eq (by simpa using h))
    have hlt := x.isLt
    simp only [nonZeroFirst, BitVec.toNat_ofNat]
    show 1 % 2 ^ (8 * w) ≤ x.toNat
    have := Nat.mod_le 1 (2 ^ (8 * w))
    omega

/-- C09 for signed NonZero types: zero is skipped. -/
theorem C09_next_nonzero_signed (w : Nat) (hw : 0 < w) (v : BitVec (8 * w)) (_hv : v ≠ 0) :
    (∀ n, nonZeroIntNext v = some n → n ≠ 0 ∧ v.toInt < n.toInt ∧
      ∀ x : BitVec (8 * w), x ≠ 0 → v.toInt < x.toInt → n.toInt ≤ x.toInt) ∧
    (nonZeroIntNext v = none → ∀ x : BitVec (8 * w), x.toInt ≤ v.toInt) ∧
    (nonZeroFirst w).toInt = 1 := by
  have h9 := C09_next_signed w hw v
  have hp : 256 ≤ 2 ^ (8 * w) := by
    have : 2 ^ 8 ≤ 2 ^ (8 * w) := Nat.pow_le_pow_right (by decide) (by omega)
    simpa using this
  have h1 : (1#(8 * w)).toNat = 1 := by
    rw [BitVec.toNat_ofNat]; exact Nat.mod_eq_of_lt (by omega)
  have hone : (nonZeroFirst w).toInt = 1 := by
    show (1#(8 * w)).toInt = 1
    rw [BitVec.toInt_eq_toNat_cond, h1, if_pos (by omega)]; rfl
  have hne : (nonZeroFirst w) ≠ 0 := by
    intro h
    have h2 : (nonZeroFirst w).toNat = 0 := by rw [h]; simp
    have h3 : (nonZeroFirst w).toNat = 1 := h1
    omega
  refine ⟨fun n h => ?_, fun h => ?_, hone⟩
  · simp only [nonZeroIntNext, Option.map_eq_some_iff] at h
    obtain ⟨n', hn', rfl⟩ := h
    have hlt := h9.1 n' hn'
    by_cases hz : n' = 0
    · rw [if_pos hz]
      have hz2 : n'.toInt = 0 := by rw [hz]; simp
      refine ⟨hne, by omega, fun x hx hvx => ?_⟩
      have := hlt.2 x hvx
      have hx0 : x.toInt ≠ 0 := fun h => hx (BitVec.eq_of_toInt_eq (by simpa using h))
      omega
    · rw [if_neg hz]
      exact ⟨hz, hlt.1, fun x _ => hlt.2 x⟩
  · simp only [nonZeroIntNext, Option.map_eq_none_iff] at h
    exact h9.2.1 h

example : uintNext (255 : BitVec (8 * 1)) = none ∧ uintNext (254 : BitVec (8 * 1)) = some 255 := by decide
example : intNext (-1 : BitVec (8 * 1)) = some 0 ∧ intNext (127 : BitVec (8 * 1)) = none := by decide
example : nonZeroIntNext (-1 : BitVec (8 * 1)) = some 1 := by decide

end Bonsai
