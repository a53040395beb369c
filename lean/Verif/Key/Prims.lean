import Verif.Key.Composite
import Verif.Key.Prefix

/-! Helper lemmas: the laws each primitive key type satisfies. -/

set_option linter.unusedSimpArgs false

namespace Bonsai

/-! ### Round trips -/

theorem uint_rt (w : Nat) : RoundTrips (uintKey w) := by
  intro v b h _; cases h; exact primDec_primEnc v

theorem int_rt (w : Nat) : RoundTrips (intKey w) := by
  intro v b h _; cases h; exact primDec_primEnc v

theorem nonZero_rt (w : Nat) : RoundTrips (nonZeroKey w) := by
  rintro ⟨v, hv⟩ b h _; cases h
  show (primDec w (primEnc v)).bind _ = _
  rw [primDec_primEnc, Res.bind_ok, dif_pos hv]

theorem nonZeroInt_rt (w : Nat) : RoundTrips (nonZeroIntKey w) := by
  rintro ⟨v, hv⟩ b h _; cases h
  show (primDec w (primEnc v)).bind _ = _
  rw [primDec_primEnc, Res.bind_ok, dif_pos hv]

theorem unit_rt : RoundTrips unitKey := by intro v b _ _; rfl

theorem bool_rt : RoundTrips boolKey := by
  intro v b h _
  cases v <;> cases h <;> rfl

theorem bytes_rt : RoundTrips bytesKey := by intro v b h _; cases h; rfl

theorem fromUTF8_strBytes (s : String) : String.fromUTF8? ⟨(strBytes s).toArray⟩ = some s := by
  have e : (⟨(strBytes s).toArray⟩ : ByteArray) = s.toByteArray := rfl
  rw [e, String.fromUTF8?, dif_pos s.isValidUTF8]
  rfl

theorem string_rt : RoundTrips stringKey := by
  intro v b h _; cases h
  exact congrArg Res.ofOption (fromUTF8_strBytes v)

theorem array_rt (n : Nat) : RoundTrips (arrayKey n) := by
  rintro ⟨v, hv⟩ b h _; cases h
  simp [arrayKey, hv]

theorem option_rt {k : KeyTy} (hk : RoundTrips k) : RoundTrips (optionKey k) := by
  intro v b h hb
  cases v with
  | none => cases h; simp [optionKey]
  | some v =>
    simp only [optionKey, Option.map_eq_some_iff] at h
    obtain ⟨c, hc, rfl⟩ := h
    simp at hb
    simp [optionKey, hk v c hc (by omega)]

theorem result_rt {k e : KeyTy} (hk : RoundTrips k) (he : RoundTrips e) :
    RoundTrips (resultKey k e) := by
  intro v b h hb
  cases v with
  | ok v =>
    simp only [resultKey, Option.map_eq_some_iff] at h
    obtain ⟨c, hc, rfl⟩ := h
    simp at hb
    simp [resultKey, hk v c hc (by omega)]
  | error v =>
    simp only [resultKey, Option.map_eq_some_iff] at h
    obtain ⟨c, hc, rfl⟩ := h
    simp at hb
    simp [resultKey, he v c hc (by omega)]

theorem varint_rt {α : Type} {c : Varint α} {lt : α → α → Prop} (hc : LawfulVarint c lt) :
    RoundTrips (varintKey c lt) := by
  intro v b h _; cases h
  exact congrArg Res.ofOption (hc.dec_enc v)

theorem find_disc {d : EnumDesc} [DecidableEq d.repr.T]
    (hd : ∀ i j, d.disc i = d.disc j → i = j) (i : Fin d.n) : d.find (d.disc i) = some i := by
  unfold EnumDesc.find
  cases h : (List.finRange d.n).find? fun j => d.disc j = d.disc i with
  | none =>
    have := List.find?_eq_none.mp h i (List.mem_finRange i)
    simp at this
  | some j =>
    have := List.find?_some h
    simp at this
    rw [hd _ _ this]

theorem enumEnc_eq (m : NullMode) (d : EnumDesc) [DecidableEq d.repr.T] (i : Fin d.n)
    (v : Tuple (d.fields i)) :
    (enumKey m d).enc ⟨i, v⟩ = encodeComposite m (d.repr :: d.fields i) (d.disc i, v) := by
  rfl

theorem enum_rt {m : NullMode} {d : EnumDesc} [DecidableEq d.repr.T]
    (hd : ∀ i j, d.disc i = d.disc j → i = j)
    (hr : RoundTrips d.repr ∧ HonestLen d.repr)
    (hf : ∀ i, ∀ k ∈ d.fields i, RoundTrips k ∧ HonestLen k) : RoundTrips (enumKey m d) := by
  rintro ⟨i, v⟩ b h hb
  rw [enumEnc_eq] at h
  have key := decodeComposite_encodeComposite (m := m) (ks := d.repr :: d.fields i)
    (by
      intro k hk
      rcases List.mem_cons.mp hk with rfl | hk
      · exact hr
      · exact hf i k hk) h hb
  simp only [decodeComposite, decodeFields] at key
  simp only [enumKey]
  cases h1 : decodeField m d.repr b ⟨0, b.length⟩ with
  | err => rw [h1] at key; cases key
  | panic => rw [h1] at key; cases key
  | ok p =>
    obtain ⟨x, dd⟩ := p
    rw [h1] at key
    simp only [Res.bind_ok] at key ⊢
    cases h2 : decodeFields m (d.fields i) b dd with
    | err => rw [h2] at key; cases key
    | panic => rw [h2] at key; cases key
    | ok q =>
      obtain ⟨vs, d2⟩ := q
      rw [h2] at key
      simp only [Res.map_ok, Res.bind_ok] at key
      split at key
      case isFalse => cases key
      case isTrue hfin =>
      cases key
      rw [find_disc hd i]
      dsimp only
      rw [h2]
      simp [hfin]

theorem unitEnum_rt {d : EnumDesc} [DecidableEq d.repr.T]
    (hd : ∀ i j, d.disc i = d.disc j → i = j) (hr : RoundTrips d.repr) :
    RoundTrips (unitEnumKey d) := by
  intro i b h hb
  simp only [unitEnumKey] at h ⊢
  rw [hr _ b h hb]
  simp [find_disc hd i, Res.ofOption]

/-! ### Honest lengths -/

theorem uint_honest (w : Nat) : HonestLen (uintKey w) := by
  intro v b n h hl; cases h; cases hl; exact primEnc_length v

theorem int_honest (w : Nat) : HonestLen (intKey w) := by
  intro v b n h hl; cases h; cases hl; exact primEnc_length v

theorem nonZero_honest (w : Nat) : HonestLen (nonZeroKey w) := by
  intro v b n h hl; cases h; cases hl; exact primEnc_length v.1

theorem nonZeroInt_honest (w : Nat) : HonestLen (nonZeroIntKey w) := by
  intro v b n h hl; cases h; cases hl; exact primEnc_length v.1

theorem unit_honest : HonestLen unitKey := by intro v b n h hl; cases h; cases hl; rfl

theorem bool_honest : HonestLen boolKey := by
  intro v b n h hl; cases hl; cases v <;> cases h <;> rfl

theorem array_honest (n : Nat) : HonestLen (arrayKey n) := by
  intro v b n h hl; cases h; cases hl; exact v.2

theorem honest_of_none {k : KeyTy} (h : k.len = none) : HonestLen k := by
  intro v b n _ hl; rw [h] at hl; cases hl

theorem unitEnum_honest {d : EnumDesc} [DecidableEq d.repr.T] (hr : HonestLen d.repr) :
    HonestLen (unitEnumKey d) := fun _ b n h hl => hr _ b n h hl

theorem pieces_fixed {m : NullMode} {ks : List KeyTy} (hk : ∀ k ∈ ks, HonestLen k) {n : Nat}
    (hn : sumLen ks = some n) {v : Tuple ks} {p : Bytes × List Nat} (hp : pieces m ks v = some p) :
    p.1.length = n ∧ p.2 = [] := by
  induction ks generalizing n p with
  | nil => simp [pieces] at hp; simp [sumLen] at hn; subst hp; simp [hn]
  | cons k ks ih =>
    obtain ⟨v, vs⟩ := v
    simp only [sumLen] at hn
    cases hl : k.len with
    | none => rw [hl] at hn; cases hn
    | some a =>
    cases hs : sumLen ks with
    | none => rw [hl, hs] at hn; cases hn
    | some c =>
    rw [hl, hs] at hn
    simp only [Option.some.injEq] at hn
    subst hn
    simp only [pieces] at hp
    cases h1 : piece m k v with
    | none => rw [h1] at hp; cases hp
    | some p1 =>
    rw [h1] at hp
    simp only [Option.bind_some] at hp
    cases h3 : pieces m ks vs with
    | none => rw [h3] at hp; cases hp
    | some p2 =>
    rw [h3] at hp
    simp only [Option.map_some, Option.some.injEq] at hp
    subst hp
    have := ih (fun k' h' => hk k' (by simp [h'])) hs h3
    unfold piece at h1
    cases he : k.enc v with
    | none => rw [he] at h1; cases h1
    | some b =>
    rw [he, hl] at h1
    cases h1
    have := hk k (by simp) v b a he hl
    simp_all

theorem tuple_honest {ks : List KeyTy} (hk : ∀ k ∈ ks, HonestLen k) : HonestLen (tupleKey ks) := by
  intro v b n h hl
  replace h : encodeComposite .escape ks v = some b := h
  replace hl : sumLen ks = some n := hl
  change Tuple ks at v
  rw [encodeComposite_eq, Option.map_eq_some_iff] at h
  obtain ⟨p, hp, rfl⟩ := h
  have := pieces_fixed hk hl hp
  simp [this]

/-! ### Prefix-freeness of fixed-length encodings -/

theorem prefixFree_of_honest {k : KeyTy} {n : Nat} (hl : k.len = some n) (hn : n < 2 ^ 64)
    (hr : RoundTrips k) (hh : HonestLen k) : PrefixFree k := by
  intro v w a b ha hb hp
  have e1 := hh v a n ha hl
  have e2 := hh w b n hb hl
  have := hp.eq_of_length (by omega)
  subst this
  have h1 := hr v a ha (by omega)
  have h2 := hr w a hb (by omega)
  rw [h1] at h2
  cases h2; rfl

theorem option_prefixFree {k : KeyTy} (hk : PrefixFree k) : PrefixFree (optionKey k) := by
  intro v w a b ha hb hp
  cases v with
  | none =>
    cases w with
    | none => rfl
    | some w =>
      simp only [optionKey, Option.map_eq_some_iff, Option.some.injEq] at ha hb
      obtain ⟨c, _, rfl⟩ := hb
      subst ha
      simp [List.cons_prefix_cons] at hp
  | some v =>
    cases w with
    | none =>
      simp only [optionKey, Option.map_eq_some_iff, Option.some.injEq] at ha hb
      obtain ⟨c, _, rfl⟩ := ha
      subst hb
      simp [List.cons_prefix_cons] at hp
    | some w =>
      simp only [optionKey, Option.map_eq_some_iff] at ha hb
      obtain ⟨c, hc, rfl⟩ := ha
      obtain ⟨e, he, rfl⟩ := hb
      simp only [List.cons_prefix_cons, true_and] at hp
      rw [hk v w c e hc he hp]

/-! ### Order -/

theorem uint_sorts (w : Nat) : SortsCorrectly (uintKey w) := by
  intro v u a b ha hb; cases ha; cases hb; exact primEnc_lt_iff v u

theorem uint_total (w : Nat) : TotallyOrdered (uintKey w) := by
  refine ⟨fun v u => ?_, fun v => Nat.lt_irrefl _, fun v u h => Nat.lt_asymm h⟩
  rcases Nat.lt_trichotomy v.toNat u.toNat with h | h | h
  · exact .inl h
  · exact .inr (.inl (BitVec.eq_of_toNat_eq h))
  · exact .inr (.inr h)

theorem nonZero_sorts (w : Nat) : SortsCorrectly (nonZeroKey w) := by
  intro v u a b ha hb; cases ha; cases hb; exact primEnc_lt_iff v.1 u.1

theorem nonZero_total (w : Nat) : TotallyOrdered (nonZeroKey w) := by
  refine ⟨fun v u => ?_, fun v => Nat.lt_irrefl _, fun v u h => Nat.lt_asymm h⟩
  rcases (uint_total w).1 v.1 u.1 with h | h | h
  · exact .inl h
  · exact .inr (.inl (Subtype.ext h))
  · exact .inr (.inr h)

theorem unit_sorts : SortsCorrectly unitKey := by
  intro v u a b ha hb; cases ha; cases hb; simp [unitKey]

theorem unit_total : TotallyOrdered unitKey :=
  ⟨fun _ _ => .inr (.inl rfl), fun _ h => h, fun _ _ h => h.elim⟩

theorem bool_sorts : SortsCorrectly boolKey := by
  intro v u a b ha hb
  cases v <;> cases u <;> cases ha <;> cases hb <;> simp [boolKey] <;> decide

theorem bool_total : TotallyOrdered boolKey := by
  refine ⟨?_, ?_, ?_⟩
  · intro v w; cases v <;> cases w <;> simp [boolKey]
  · intro v; cases v <;> simp [boolKey]
  · intro v w; cases v <;> cases w <;> simp [boolKey]

theorem bytes_sorts : SortsCorrectly bytesKey := by
  intro v u a b ha hb; cases ha; cases hb; exact Iff.rfl

theorem bytes_total : TotallyOrdered bytesKey :=
  ⟨bytes_trichotomy, bytes_lt_irrefl, fun _ _ => bytes_lt_asymm⟩

theorem string_sorts : SortsCorrectly stringKey := by
  intro v u a b ha hb; cases ha; cases hb; exact Iff.rfl

theorem string_total : TotallyOrdered stringKey := by
  refine ⟨fun v w => ?_, fun v => bytes_lt_irrefl _, fun _ _ => bytes_lt_asymm⟩
  rcases bytes_trichotomy (strBytes v) (strBytes w) with h | h | h
  · exact .inl h
  · exact .inr (.inl (strBytes_inj h))
  · exact .inr (.inr h)

theorem array_sorts (n : Nat) : SortsCorrectly (arrayKey n) := by
  intro v u a b ha hb; cases ha; cases hb; exact Iff.rfl

theorem array_total (n : Nat) : TotallyOrdered (arrayKey n) := by
  refine ⟨fun v w => ?_, fun v => bytes_lt_irrefl _, fun _ _ => bytes_lt_asymm⟩
  rcases bytes_trichotomy v.1 w.1 with h | h | h
  · exact .inl h
  · exact .inr (.inl (Subtype.ext h))
  · exact .inr (.inr h)

theorem option_sorts {k : KeyTy} (hk : SortsCorrectly k) : SortsCorrectly (optionKey k) := by
  intro v u a b ha hb
  cases v with
  | none =>
    cases u with
    | none => cases ha; cases hb; simp [optionKey, bytes_lt_irrefl]
    | some u =>
      simp only [optionKey, Option.map_eq_some_iff, Option.some.injEq] at ha hb
      obtain ⟨c, _, rfl⟩ := hb
      subst ha
      simp [optionKey, List.cons_lt_cons_iff]
  | some v =>
    cases u with
    | none =>
      simp only [optionKey, Option.map_eq_some_iff, Option.some.injEq] at ha hb
      obtain ⟨c, _, rfl⟩ := ha
      subst hb
      simp [optionKey, List.cons_lt_cons_iff]
    | some u =>
      simp only [optionKey, Option.map_eq_some_iff] at ha hb
      obtain ⟨c, hc, rfl⟩ := ha
      obtain ⟨e, he, rfl⟩ := hb
      simp [optionKey, List.cons_lt_cons_iff, hk v u c e hc he]

theorem option_total {k : KeyTy} (hk : TotallyOrdered k) : TotallyOrdered (optionKey k) := by
  refine ⟨?_, ?_, ?_⟩
  · rintro (_ | v) (_ | w) <;> simp [optionKey]
    rcases hk.1 v w with h | h | h <;> simp [h]
  · rintro (_ | v) <;> simp [optionKey]
    exact hk.2.1 v
  · rintro (_ | v) (_ | w) <;> simp [optionKey]
    exact hk.2.2 v w

theorem result_sorts {k e : KeyTy} (hk : SortsCorrectly k) (he : SortsCorrectly e) :
    SortsCorrectly (resultKey k e) := by
  intro v u a b ha hb
  cases v <;> cases u <;>
  · simp only [resultKey, Option.map_eq_some_iff] at ha hb
    obtain ⟨c, hc, rfl⟩ := ha
    obtain ⟨f, hf, rfl⟩ := hb
    first
      | simp [resultKey, List.cons_lt_cons_iff, hk _ _ c f hc hf]; done
      | simp [resultKey, List.cons_lt_cons_iff, he _ _ c f hc hf]; done
      | simp [resultKey, List.cons_lt_cons_iff]

theorem result_total {k e : KeyTy} (hk : TotallyOrdered k) (he : TotallyOrdered e) :
    TotallyOrdered (resultKey k e) := by
  refine ⟨?_, ?_, ?_⟩
  · rintro (v | v) (w | w) <;> simp [resultKey]
    · rcases he.1 v w with h | h | h <;> simp [h]
    · rcases hk.1 v w with h | h | h <;> simp [h]
  · rintro (v | v) <;> simp [resultKey]
    · exact he.2.1 v
    · exact hk.2.1 v
  · rintro (v | v) (w | w) <;> simp [resultKey]
    · exact he.2.2 v w
    · exact hk.2.2 v w

theorem varint_sorts {α : Type} {c : Varint α} {lt : α → α → Prop} (hc : LawfulVarint c lt) :
    SortsCorrectly (varintKey c lt) := by
  intro v u a b ha hb; cases ha; cases hb; exact hc.order v u

/-! ### Panic-freedom -/

theorem primDec_ne_panic (w : Nat) (b : Bytes) : primDec w b ≠ .panic := by
  unfold primDec; split <;> simp

theorem ofOption_ne_panic {α : Type} (o : Option α) : Res.ofOption o ≠ .panic := by
  cases o <;> simp [Res.ofOption]

theorem map_ne_panic {α β : Type} {f : α → β} {r : Res α} (h : r ≠ .panic) : r.map f ≠ .panic := by
  cases r <;> simp_all

/-- Fixed-width fields: decoding never panics on input that fits in half the address space. -/
theorem decodeFields_fixed_ne_panic {m : NullMode} {ks : List KeyTy} {n : Nat}
    (hn : sumLen ks = some n) (hk : ∀ k ∈ ks, NeverPanics k) (b : Bytes) (d : Dec)
    (hd : d.stop + n < 2 ^ 64) (ho : d.offset ≤ d.stop) :
    decodeFields m ks b d ≠ .panic ∧
      ∀ r, decodeFields m ks b d = .ok r → r.2.offset ≤ r.2.stop := by
  induction ks generalizing d n with
  | nil => simp [decodeFields, ho]
  | cons k ks ih =>
    simp only [sumLen] at hn
    cases hl : k.len with
    | none => rw [hl] at hn; cases hn
    | some a =>
    cases hs : sumLen ks with
    | none => rw [hl, hs] at hn; cases hn
    | some c =>
    rw [hl, hs] at hn
    simp only [Option.some.injEq] at hn
    subst hn
    simp only [decodeFields, decodeField, fieldLen, hl, Res.bind_ok]
    rw [if_neg (by omega)]
    by_cases h1 : d.offset + a ≤ d.stop
    · simp only [if_pos h1]
      have hp := hk k (by simp) (slice b d.offset (d.offset + a))
      cases hdec : k.dec (slice b d.offset (d.offset + a)) with
      | panic => exact absurd hdec hp
      | err => simp
      | ok v =>
        simp only [Res.map_ok, Res.bind_ok]
        have := ih hs (fun k' h' => hk k' (by simp [h'])) ⟨d.offset + a, d.stop⟩
          (by simp; omega) h1
        cases h2 : decodeFields m ks b ⟨d.offset + a, d.stop⟩ with
        | panic => exact absurd h2 this.1
        | err => simp
        | ok r =>
          simp only [Res.map_ok, ne_eq, reduceCtorEq, not_false_eq_true, Res.ok.injEq, true_and]
          rintro r' rfl
          exact this.2 r h2
    · simp [if_neg h1]

end Bonsai
