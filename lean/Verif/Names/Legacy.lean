import Verif.Key.Prims

/-!
# C17: the deprecated V1 key encodings

`crates/bonsaidb-core/src/key/deprecated.rs`.
-/
set_option linter.unusedSimpArgs false

namespace Bonsai.Legacy
open Bonsai

/-- `u64::encode_variable` / `u64::decode_variable` of the external crate `ordered_varint`, in the
streaming form V1 uses: encoding fails (`none`) for values the codec cannot represent, decoding
returns the unread rest. -/
structure StreamVarint where
  enc : Nat → Option Bytes
  dec : Bytes → Option (Nat × Bytes)

/-- Assumption about the external crate: decoding an encoding followed by anything returns the value
and what follows. -/
def StreamVarint.Lawful (c : StreamVarint) : Prop :=
  ∀ v b rest, c.enc v = some b → c.dec (b ++ rest) = some (v, rest)

/-- `encode_composite_field`, deprecated.rs:30-42. -/
def encodeField (c : StreamVarint) (k : KeyTy) (v : k.T) : Option Bytes :=
  (k.enc v).bind fun b =>
    match k.len with
    | none => (c.enc b.length).map fun l => l ++ b
    | some _ => some b

/-- `split_at` and `from_ord_bytes`, deprecated.rs:74-78: panics when too short. -/
def takeField (k : KeyTy) (bytes : Bytes) (n : Nat) : Res (k.T × Bytes) :=
  if bytes.length < n then .panic
  else (k.dec (bytes.take n)).map fun v => (v, bytes.drop n)

/-- `decode_composite_field`, deprecated.rs:64-79. -/
def decodeField (c : StreamVarint) (k : KeyTy) (bytes : Bytes) : Res (k.T × Bytes) :=
  match k.len with
  | some n => takeField k bytes n
  | none =>
    match c.dec bytes with
    | none => .err
    | some (n, rest) => takeField k rest n

/-- `as_ord_bytes` of `TupleEncodingV1`, deprecated.rs:118-144. -/
def encodeTuple (c : StreamVarint) : (ks : List KeyTy) → Tuple ks → Option Bytes
  | [], _ => some []
  | k :: ks, (v, vs) =>
    (encodeField c k v).bind fun a => (encodeTuple c ks vs).map fun b => a ++ b

/-- The `let` chain of `from_ord_bytes`, deprecated.rs:105-107. -/
def decodeTupleAux (c : StreamVarint) : (ks : List KeyTy) → Bytes → Res (Tuple ks × Bytes)
  | [], b => .ok ((), b)
  | k :: ks, b =>
    (decodeField c k b).bind fun (v, r) =>
      (decodeTupleAux c ks r).map fun (vs, r') => ((v, vs), r')

/-- `from_ord_bytes` of `TupleEncodingV1`, deprecated.rs:103-116. -/
def decodeTuple (c : StreamVarint) (ks : List KeyTy) (b : Bytes) : Res (Tuple ks) :=
  (decodeTupleAux c ks b).bind fun (v, r) => if r.isEmpty then .ok v else .err

/-- `TupleEncodingV1<(T1, …)>`, deprecated.rs:98-144, for any number of members (the repository has
1 to 8). -/
@[reducible] def tupleV1Key (c : StreamVarint) (ks : List KeyTy) : KeyTy where
  T := Tuple ks
  len := sumLen ks
  enc := encodeTuple c ks
  dec := decodeTuple c ks
  lt := tupleLt ks

/-- `OptionKeyV1<T>`, deprecated.rs:196-250.  The assertion failure for an empty contained encoding
(deprecated.rs:270) is an encoding failure here. `lt` puts `None` first, as `Option`'s order does. -/
@[reducible] def optionV1Key (k : KeyTy) : KeyTy where
  T := Option k.T
  len := k.len
  enc v := match v with
    | none => some []
    | some v => (k.enc v).bind fun b => if b.isEmpty then none else some b
  dec b := if b.isEmpty then .ok none else (k.dec b).map some
  lt a b := match a, b with
    | none, some _ => True
    | some a, some b => k.lt a b
    | _, _ => False

/-! ## C17 -/

theorem takeField_append {k : KeyTy} (hr : RoundTrips k) {v : k.T} {b rest : Bytes}
    (he : k.enc v = some b) (hl : b.length < 2 ^ 64) :
    takeField k (b ++ rest) b.length = .ok (v, rest) := by
  unfold takeField
  rw [if_neg (by simp)]
  simp [hr v b he hl]

theorem decodeField_encodeField {c : StreamVarint} (hc : c.Lawful) {k : KeyTy} (hr : RoundTrips k)
    (hh : HonestLen k) {v : k.T} {b rest : Bytes} (he : encodeField c k v = some b)
    (hl : b.length < 2 ^ 64) : decodeField c k (b ++ rest) = .ok (v, rest) := by
  unfold encodeField at he
  cases hv : k.enc v with
  | none => simp [hv] at he
  | some e =>
    simp only [hv, Option.bind_some] at he
    unfold decodeField
    cases hk : k.len with
    | some n =>
      simp only [hk, Option.some.injEq] at he
      subst he
      simp only
      rw [← hh v e n hv hk]
      exact takeField_append hr hv hl
    | none =>
      simp only [hk] at he
      cases hn : c.enc e.length with
      | none => simp [hn] at he
      | some l =>
        simp only [hn, Option.map_some, Option.some.injEq] at he
        subst he
        simp only [List.append_assoc]
        rw [hc _ _ _ hn]
        exact takeField_append hr hv (by simp at hl; omega)

theorem decodeTupleAux_encodeTuple {c : StreamVarint} (hc : c.Lawful) {ks : List KeyTy}
    (hr : ∀ k ∈ ks, RoundTrips k) (hh : ∀ k ∈ ks, HonestLen k) (v : Tuple ks) (b rest : Bytes)
    (he : encodeTuple c ks v = some b) (hl : b.length < 2 ^ 64) :
    decodeTupleAux c ks (b ++ rest) = .ok (v, rest) := by
  induction ks generalizing b rest with
  | nil => simp [encodeTuple] at he; subst he; rfl
  | cons k ks ih =>
    obtain ⟨x, xs⟩ := v
    simp only [encodeTuple] at he
    cases h1 : encodeField c k x with
    | none => simp [h1] at he
    | some a =>
      cases h2 : encodeTuple c ks xs with
      | none => simp [h1, h2] at he
      | some d =>
        simp only [h1, h2, Option.bind_some, Option.map_some, Option.some.injEq] at he
        subst he
        simp only [List.length_append] at hl
        simp only [decodeTupleAux, List.append_assoc]
        rw [decodeField_encodeField hc (hr k (by simp)) (hh k (by simp)) h1 (by omega)]
        simp only [Res.bind_ok]
        rw [ih (fun k hk => hr k (by simp [hk])) (fun k hk => hh k (by simp [hk])) xs d rest h2
          (by omega)]
        rfl

/-- **C17.** A value written by the V1 tuple encoding decodes to the original, for every tuple of
round-tripping members that have the `LENGTH` they declare. -/
theorem C17_tuple_v1_decodes (c : StreamVarint) (hc : c.Lawful) (ks : List KeyTy)
    (hr : ∀ k ∈ ks, RoundTrips k) (hh : ∀ k ∈ ks, HonestLen k) : RoundTrips (tupleV1Key c ks) := by
  intro v b he hl
  have := decodeTupleAux_encodeTuple hc hr hh v b [] he hl
  simp only [List.append_nil] at this
  show decodeTuple c ks b = .ok v
  unfold decodeTuple
  rw [this]
  rfl

/-- **C17.** A value written by the V1 option encoding decodes to the original. -/
theorem C17_option_v1_decodes (k : KeyTy) (hk : RoundTrips k) : RoundTrips (optionV1Key k) := by
  intro v b he hl
  cases v with
  | none => simp at he; subst he; rfl
  | some v =>
    cases hv : k.enc v with
    | none => simp [hv] at he
    | some e =>
      simp only [hv, Option.bind_some] at he
      split at he
      · cases he
      · rename_i hne
        cases he
        show (if b.isEmpty then Res.ok none else (k.dec b).map some) = _
        rw [if_neg hne, hk v b hv hl]
        rfl

/-- Extra bytes after the last member are rejected, never silently dropped. -/
theorem C17_trailing_bytes_rejected (c : StreamVarint) (hc : c.Lawful) (ks : List KeyTy)
    (hr : ∀ k ∈ ks, RoundTrips k) (hh : ∀ k ∈ ks, HonestLen k) (v : Tuple ks) (b x : Bytes)
    (he : encodeTuple c ks v = some b) (hl : b.length < 2 ^ 64) (hx : x ≠ []) :
    decodeTuple c ks (b ++ x) = .err := by
  unfold decodeTuple
  rw [decodeTupleAux_encodeTuple hc hr hh v b x he hl]
  cases x with
  | nil => exact absurd rfl hx
  | cons => rfl

/-- The V1 option order is right: `None` first, then the contained order. -/
theorem C17_option_v1_sorts (k : KeyTy) (hk : SortsCorrectly k) : SortsCorrectly (optionV1Key k) := by
  intro v w a b ha hb
  have key : ∀ (v : k.T) (e : Bytes), ((k.enc v).bind fun b => if b.isEmpty then none else some b)
      = some e → k.enc v = some e ∧ e ≠ [] := by
    intro v e h
    cases hv : k.enc v with
    | none => simp [hv] at h
    | some x =>
      simp only [hv, Option.bind_some] at h
      split at h
      · cases h
      · rename_i hne; cases h; exact ⟨rfl, by simpa using hne⟩
  cases v with
  | none =>
    simp at ha; subst ha
    cases w with
    | none => simp at hb; subst hb; simp
    | some w =>
      obtain ⟨h1, h2⟩ := key w b hb
      cases b with
      | nil => exact absurd rfl h2
      | cons x b => simp
  | some v =>
    obtain ⟨h1, h2⟩ := key v a ha
    cases w with
    | none => simp at hb; subst hb; cases a <;> simp
    | some w =>
      obtain ⟨h3, h4⟩ := key w b hb
      exact hk v w a b h1 h3

/-- **The known order defect of V1 (#240)**: with any codec that encodes the lengths 1 and 2 in
order, the tuple `("b",)` sorts before `("aa",)` although `"aa" < "b"`. -/
theorem C17_v1_order_defect (c : StreamVarint) (l1 l2 : Bytes) (h1 : c.enc 1 = some l1)
    (h2 : c.enc 2 = some l2) (hlt : l1 < l2) (hp : ¬ l1 <+: l2) :
    ¬ SortsCorrectly (tupleV1Key c [stringKey]) := by
  intro h
  have s1 : strBytes "b" = [98] := by decide
  have s2 : strBytes "aa" = [97, 97] := by decide
  have e1 : (tupleV1Key c [stringKey]).enc ("b", ()) = some (l1 ++ [98]) := by
    show encodeTuple c [stringKey] ("b", ()) = _
    simp [encodeTuple, encodeField, s1, h1]
  have e2 : (tupleV1Key c [stringKey]).enc ("aa", ()) = some (l2 ++ [97, 97]) := by
    show encodeTuple c [stringKey] ("aa", ()) = _
    simp [encodeTuple, encodeField, s2, h2]
  have := (h _ _ _ _ e1 e2).mp (append_lt_append_of_lt hlt hp _ _)
  simp only [tupleLt] at this
  revert this
  simp [stringKey, s1, s2]
  decide

/-- **Violated inside a tuple.** `OptionKeyV1` of a fixed-width type declares the inner width even
for `None`, so a V1 tuple containing it writes bytes that do not decode (here: decoding panics). -/
theorem C17_violated_option_in_tuple (c : StreamVarint) :
    ∃ b, encodeTuple c [optionV1Key (uintKey 1), uintKey 1] (none, 5#8, ()) = some b ∧
      decodeTuple c [optionV1Key (uintKey 1), uintKey 1] b = .panic := by
  refine ⟨[5], rfl, rfl⟩

/-! Non-vacuity: a lawful codec exists (8 big-endian bytes), and a mixed tuple meets the
hypotheses. -/

def be64 : StreamVarint where
  enc v := if v < 2 ^ 64 then some (toBE 8 v) else none
  dec b := if b.length < 8 then none else some (fromBE (b.take 8), b.drop 8)

theorem be64_lawful : be64.Lawful := by
  intro v b rest h
  simp only [be64] at h ⊢
  split at h
  · rename_i hv
    cases h
    have hl := toBE_length 8 v
    rw [if_neg (by simp [hl])]
    rw [List.take_left' hl, List.drop_left' hl,
      fromBE_toBE (by have : (256 : Nat) ^ 8 = 2 ^ 64 := by decide
                      omega)]
  · cases h

example : RoundTrips (tupleV1Key be64 [stringKey, uintKey 4, optionV1Key bytesKey]) := by
  apply C17_tuple_v1_decodes _ be64_lawful
  · intro k hk
    simp only [List.mem_cons, List.not_mem_nil, or_false] at hk
    rcases hk with rfl | rfl | rfl
    · exact string_rt
    · exact uint_rt 4
    · exact C17_option_v1_decodes _ bytes_rt
  · intro k hk
    simp only [List.mem_cons, List.not_mem_nil, or_false] at hk
    rcases hk with rfl | rfl | rfl
    · exact honest_of_none rfl
    · exact uint_honest 4
    · exact honest_of_none rfl

example : ¬ SortsCorrectly (tupleV1Key be64 [stringKey]) :=
  C17_v1_order_defect be64 (toBE 8 1) (toBE 8 2) (by decide) (by decide) (by decide) (by decide)

end Bonsai.Legacy
