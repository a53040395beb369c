import Verif.KV.Api

/-!
# C76: strict and lossy conversions of stored numbers

`into_u64` and the others promise: "If the conversion cannot be done without losing data, an error will be
returned."  Numbers are compared exactly, in units of `2^-1074` (`F64.units`).
-/
set_option linter.unusedSimpArgs false
set_option linter.unusedVariables false
set_option exponentiation.threshold 1200

namespace Bonsai.KV
open Bonsai

/-- The number, exactly, in units of `2^-1074`; none for infinities and NaN. -/
def Numeric.exact : Numeric F64 → Option Int
  | .integer i => some (i.toInt * unit)
  | .unsigned u => some ((u.toNat : Int) * unit)
  | .float f => if f.finite then some f.units else none

theorem unit_posI : (0 : Int) < (unit : Int) := by have := unit_pos; omega

theorem mul_unit_inj {a b : Int} (h : a * unit = b * unit) : a = b :=
  Int.eq_of_mul_eq_mul_right (by have := unit_posI; omega) h

theorem hasFraction_iff {f : F64} (hf : f.finite = true) :
    f.hasFraction = false ↔ ∃ q : Int, f.units = q * unit := by
  have hfr : f.fract = some (f.units.tmod unit) := by simp [F64.fract, hf]
  unfold F64.hasFraction
  rw [hfr]
  simp only [decide_eq_false_iff_not, Decidable.not_not]
  constructor
  · intro h
    refine ⟨f.units.tdiv unit, ?_⟩
    have := Int.tdiv_mul_add_tmod f.units unit
    omega
  · rintro ⟨q, hq⟩
    rw [hq]
    exact Int.mul_tmod_left _ _

theorem satI64_inRange {x : Int} (h1 : -(2 ^ 63) ≤ x) (h2 : x < 2 ^ 63) : (satI64 x).toInt = x := by
  rw [satI64_toInt]
  simp only [Kind.clamp, Kind.lo, Kind.hi]
  omega

theorem satU64_inRange {x : Int} (h1 : 0 ≤ x) (h2 : x < 2 ^ 64) : ((satU64 x).toNat : Int) = x := by
  rw [satU64_toNat]
  simp only [Kind.clamp, Kind.lo, Kind.hi]
  omega

theorem toI64_units {f : F64} (hf : f.finite = true) : f.toI64 = satI64 (f.units.tdiv unit) := by
  have hn : f.isNaN = false := by
    simp only [F64.finite, decide_eq_true_eq] at hf
    simp [F64.isNaN, hf]
  unfold F64.toI64
  simp only [hn, hf, Bool.false_eq_true, if_false, if_true]

theorem toU64_units {f : F64} (hf : f.finite = true) : f.toU64 = satU64 (f.units.tdiv unit) := by
  have hn : f.isNaN = false := by
    simp only [F64.finite, decide_eq_true_eq] at hf
    simp [F64.isNaN, hf]
  unfold F64.toU64
  simp only [hn, hf, Bool.false_eq_true, if_false, if_true]

theorem tdiv_unit (q : Int) : (q * (unit : Int)).tdiv unit = q :=
  Int.mul_tdiv_cancel q (by have := unit_posI; omega)

/-- The magnitude of a finite `f64` of at least `2^53` is whole, and below 1 its fraction is all of it. -/
theorem whole_of_large {f : F64} {s : Nat} (h : 2 ^ 52 * 2 ^ s ≤ f.mag) : ∃ q : Int, f.units = q * (2 ^ s : Nat) := by
  obtain ⟨c, hc⟩ := F64.mag_grid h
  unfold F64.units
  split
  · refine ⟨-(c : Int), ?_⟩
    rw [hc, Int.natCast_mul, Int.neg_mul, Int.mul_comm]
  · exact ⟨c, by rw [hc, Int.natCast_mul, Int.mul_comm]⟩

/-! ## `i64` -/

/-- A float that fits an `i64`. -/
def FitsI64 : Numeric F64 → Prop
  | .float f => f.finite = true ∧ -(2 ^ 63) * (unit : Int) ≤ f.units ∧ f.units < 2 ^ 63 * unit
  | _ => True

/-- **C76.** What `into_i64` answers is exactly the stored number, for all numbers but floats outside of the
`i64` range. -/
theorem C76_strict_i64_is_exact_partial (n : Numeric F64) (i : Int64) (hr : FitsI64 n)
    (h : n.asI64Strict = some i) : n.exact = some (i.toInt * unit) := by
  cases n with
  | integer j =>
    simp only [Numeric.asI64Strict, Option.some.injEq] at h
    rw [h]; rfl
  | unsigned u =>
    simp only [Numeric.asI64Strict] at h
    split at h
    · rename_i hu
      simp only [Option.some.injEq] at h
      have : i.toInt = u.toNat := by
        rw [← h, Int64.toInt_ofNat_of_lt hu]
      simp only [Numeric.exact, this]
    · cases h
  | float f =>
    obtain ⟨hf, h1, h2⟩ := hr
    simp only [Numeric.asI64Strict] at h
    cases hfr : f.hasFraction with
    | true => rw [hfr] at h; simp at h
    | false =>
      rw [hfr] at h
      simp only [Bool.false_eq_true, if_false, Option.some.injEq] at h
      obtain ⟨q, hq⟩ := (hasFraction_iff hf).1 hfr
      rw [hq] at h1 h2
      have g1 := Int.le_of_mul_le_mul_right h1 unit_posI
      have g2 := Int.lt_of_mul_lt_mul_right h2 (Int.le_of_lt unit_posI)
      have : i.toInt = q := by
        rw [← h, toI64_units hf, hq, tdiv_unit, satI64_inRange g1 g2]
      simp only [Numeric.exact, hf, if_true, hq, this]

/-- **C76.** `into_i64` refuses only what is no `i64`. -/
theorem C76_strict_i64_refuses_only_what_it_must (n : Numeric F64) (h : n.asI64Strict = none) (i : Int64) :
    n.exact ≠ some (i.toInt * unit) := by
  intro he
  cases n with
  | integer j => cases h
  | unsigned u =>
    simp only [Numeric.asI64Strict] at h
    split at h
    · cases h
    · rename_i hu
      simp only [Numeric.exact, Option.some.injEq] at he
      have := mul_unit_inj he
      have := i64_range i
      omega
  | float f =>
    simp only [Numeric.asI64Strict] at h
    simp only [Numeric.exact] at he
    cases hf : f.finite with
    | false => rw [hf] at he; simp at he
    | true =>
      rw [hf] at he
      simp only [if_true, Option.some.injEq] at he
      have : f.hasFraction = false := (hasFraction_iff hf).2 ⟨_, he⟩
      rw [this] at h
      simp at h

/-- **C76 violated.** A float of `2^63` or more is answered as `i64::MAX` by `into_i64`, without an error. -/
theorem C76_violated_strict_i64_too_large (f : F64) (hf : f.finite = true) (h : 2 ^ 63 * (unit : Int) ≤ f.units) :
    (Numeric.float f).asI64Strict = some Int64.maxValue := by
  have hmag : (f.mag : Int) = f.units := by
    have hp := unit_posI
    unfold F64.units at h ⊢
    split at h
    · exfalso; omega
    · rename_i hc; simp [hc]
  have hlarge : 2 ^ 52 * 2 ^ 1074 ≤ f.mag := by
    have e : unit = 2 ^ 1074 := by unfold unit; rfl
    rw [← e]
    have : 2 ^ 52 * unit ≤ 2 ^ 63 * unit := Nat.mul_le_mul_right _ (by decide)
    omega
  obtain ⟨q, hq⟩ := whole_of_large hlarge
  have hq : f.units = q * unit := by rw [hq]; unfold unit; rfl
  have hfr : f.hasFraction = false := (hasFraction_iff hf).2 ⟨q, hq⟩
  simp only [Numeric.asI64Strict, hfr, Bool.false_eq_true, if_false, Option.some.injEq]
  rw [hq] at h
  have g := Int.le_of_mul_le_mul_right h unit_posI
  rw [toI64_units hf, hq, tdiv_unit]
  unfold satI64
  have e1 : Int64.minValue.toInt = -(2 ^ 63) := by decide
  have e2 : Int64.maxValue.toInt = 2 ^ 63 - 1 := by decide
  rw [if_neg (by omega), if_pos (by omega)]

/-- **C76 violated.** Infinity too. -/
theorem C76_violated_strict_i64_infinite :
    (Numeric.float (F64.inf false)).asI64Strict = some Int64.maxValue ∧
      (Numeric.float (F64.inf true)).asI64Strict = some Int64.minValue := by
  constructor <;> rfl

/-! ## `u64` -/

/-- A float that fits a `u64` and is not a tiny fraction (below `f64::EPSILON`). -/
def FitsU64 : Numeric F64 → Prop
  | .float f => f.finite = true ∧ f.units < 2 ^ 64 * unit ∧ (0 < f.units → (F64.epsilon : Int) ≤ f.units)
  | _ => True

theorem unit_eps : unit = 2 ^ 52 * F64.epsilon := by
  unfold unit F64.epsilon
  rw [← Nat.pow_add]

/-- **C76.** What `into_u64` answers is exactly the stored number, for all numbers but floats of `2^64` or
more and positive floats below `2^-52`. -/
theorem C76_strict_u64_is_exact_partial (n : Numeric F64) (u : UInt64) (hr : FitsU64 n)
    (h : n.asU64Strict = some u) : n.exact = some ((u.toNat : Int) * unit) := by
  cases n with
  | unsigned v =>
    simp only [Numeric.asU64Strict, Option.some.injEq] at h
    rw [h]; rfl
  | integer j =>
    simp only [Numeric.asU64Strict] at h
    split at h
    · rename_i hj
      simp only [Option.some.injEq] at h
      have hr := i64_range j
      have : (u.toNat : Int) = j.toInt := by
        rw [← h, UInt64.toNat_ofNat_of_lt' (by show j.toInt.toNat < 2 ^ 64; omega)]
        omega
      simp only [Numeric.exact, this]
    · cases h
  | float f =>
    obtain ⟨hf, h1, h2⟩ := hr
    simp only [Numeric.asU64Strict] at h
    by_cases hc : f.fractBelowEpsilon = true ∧ f.neg = false
    · rw [if_pos hc] at h
      simp only [Option.some.injEq] at h
      obtain ⟨hb, hn⟩ := hc
      have hu : f.units = f.mag := by simp [F64.units, hn]
      have hfr : f.fract = some (f.units.tmod unit) := by simp [F64.fract, hf]
      unfold F64.fractBelowEpsilon at hb
      rw [hfr] at hb
      simp only [decide_eq_true_eq] at hb
      -- the fraction is zero
      have hz : f.units.tmod unit = 0 := by
        by_cases hsmall : f.mag < unit
        · have : f.units.tmod unit = f.units := by
            rw [hu]; exact Int.tmod_eq_of_lt (by omega) (by omega)
          rw [this] at hb ⊢
          rcases Int.lt_or_le 0 f.units with hp | hp
          · have := h2 hp; omega
          · omega
        · have e : unit = 2 ^ 52 * 2 ^ 1022 := by rw [unit_eps]; unfold F64.epsilon; rfl
          obtain ⟨q, hq⟩ := whole_of_large (f := f) (s := 1022) (by rw [← e]; omega)
          have hq : f.units = q * F64.epsilon := by rw [hq]; unfold F64.epsilon; rfl
          have he : (0 : Int) < F64.epsilon := by
            have := unit_pos
            rw [unit_eps] at this
            rcases Nat.eq_zero_or_pos F64.epsilon with h0 | h0
            · rw [h0] at this; omega
            · omega
          have hr0 : 0 ≤ f.units.tmod unit := by
            rw [hu]; exact Int.tmod_nonneg _ (by omega)
          have hd := Int.tdiv_mul_add_tmod f.units unit
          have hue : (unit : Int) = 2 ^ 52 * F64.epsilon := by
            have := congrArg (Int.ofNat) unit_eps
            simpa using this
          generalize f.units.tdiv unit = c at hd
          generalize hrr : f.units.tmod unit = r at hd hb hr0
          have hr2 : r = (q - c * 2 ^ 52) * F64.epsilon := by
            rw [Int.sub_mul, Int.mul_assoc, ← hue]
            rw [← hq]; omega
          generalize q - c * 2 ^ 52 = z at hr2
          rw [hr2] at hb hr0
          have z1 : z < 1 := Int.lt_of_mul_lt_mul_right (by rw [Int.one_mul]; exact hb) (Int.le_of_lt he)
          have z0 : 0 ≤ z := Int.le_of_mul_le_mul_right (by rw [Int.zero_mul]; exact hr0) he
          have : z = 0 := by omega
          rw [hr2, this, Int.zero_mul]
      have hd := Int.tdiv_mul_add_tmod f.units unit
      rw [hz] at hd
      generalize hq : f.units.tdiv unit = q at hd
      have hq' : f.units = q * unit := by omega
      have g2 : q < 2 ^ 64 := by
        rw [hq'] at h1
        exact Int.lt_of_mul_lt_mul_right h1 (Int.le_of_lt unit_posI)
      have g1 : 0 ≤ q := by
        have : 0 * (unit : Int) ≤ q * unit := by rw [← hq', hu]; omega
        exact Int.le_of_mul_le_mul_right this unit_posI
      have : (u.toNat : Int) = q := by
        rw [← h, toU64_units hf, hq, satU64_inRange g1 g2]
      simp only [Numeric.exact, hf, if_true, hq', this]
    · rw [if_neg hc] at h; cases h

/-- **C76.** `into_u64` refuses only what is no `u64`, and `-0.0`. -/
theorem C76_strict_u64_refuses_only_what_it_must_partial (n : Numeric F64) (h : n.asU64Strict = none)
    (hz : ∀ f, n = .float f → f.units = 0 → f.neg = false) (u : UInt64) :
    n.exact ≠ some ((u.toNat : Int) * unit) := by
  intro he
  cases n with
  | unsigned v => cases h
  | integer j =>
    simp only [Numeric.asU64Strict] at h
    split at h
    · cases h
    · simp only [Numeric.exact, Option.some.injEq] at he
      have := mul_unit_inj he
      omega
  | float f =>
    simp only [Numeric.asU64Strict] at h
    simp only [Numeric.exact] at he
    cases hf : f.finite with
    | false => rw [hf] at he; simp at he
    | true =>
      rw [hf] at he
      simp only [if_true, Option.some.injEq] at he
      have hfr : f.fract = some (f.units.tmod unit) := by simp [F64.fract, hf]
      have h0 : f.units.tmod unit = 0 := by rw [he]; exact Int.mul_tmod_left _ _
      have heps : (0 : Int) < F64.epsilon := by
        have := unit_pos
        rw [unit_eps] at this
        rcases Nat.eq_zero_or_pos F64.epsilon with h0 | h0
        · rw [h0] at this; omega
        · omega
      have hb : f.fractBelowEpsilon = true := by
        unfold F64.fractBelowEpsilon
        rw [hfr, h0]
        simpa using heps
      cases hn : f.neg with
      | false => simp [hb, hn] at h
      | true =>
        have hu : f.units = -(f.mag : Int) := by simp [F64.units, hn]
        have hpos : (0 : Int) ≤ u.toNat * unit := Int.mul_nonneg (by omega) (by omega)
        have := hz f rfl (by omega)
        rw [hn] at this
        cases this

/-- **C76 violated.** A float of `2^64` or more is answered as `u64::MAX` by `into_u64`, without an error. -/
theorem C76_violated_strict_u64_too_large (f : F64) (hf : f.finite = true) (h : 2 ^ 64 * (unit : Int) ≤ f.units) :
    (Numeric.float f).asU64Strict = some (UInt64.ofNat (2 ^ 64 - 1)) := by
  have hp := unit_posI
  have hn : f.neg = false := by
    cases hn : f.neg with
    | false => rfl
    | true => exfalso; simp only [F64.units, hn, if_true] at h; omega
  have hmag : f.units = f.mag := by simp [F64.units, hn]
  have hlarge : 2 ^ 52 * 2 ^ 1074 ≤ f.mag := by
    have e : unit = 2 ^ 1074 := by unfold unit; rfl
    rw [← e]
    have : 2 ^ 52 * unit ≤ 2 ^ 64 * unit := Nat.mul_le_mul_right _ (by decide)
    omega
  obtain ⟨q, hq⟩ := whole_of_large hlarge
  have hq : f.units = q * unit := by rw [hq]; unfold unit; rfl
  have heps : (0 : Int) < F64.epsilon := by
    have := unit_pos
    rw [unit_eps] at this
    rcases Nat.eq_zero_or_pos F64.epsilon with h0 | h0
    · rw [h0] at this; omega
    · omega
  have hb : f.fractBelowEpsilon = true := by
    have hfr : f.fract = some (f.units.tmod unit) := by simp [F64.fract, hf]
    unfold F64.fractBelowEpsilon
    rw [hfr, hq, Int.mul_tmod_left]
    simpa using heps
  simp only [Numeric.asU64Strict, hb, hn, and_self, if_true, Option.some.injEq]
  rw [hq] at h
  have g := Int.le_of_mul_le_mul_right h unit_posI
  rw [toU64_units hf, hq, tdiv_unit]
  unfold satU64
  rw [if_neg (by omega), if_pos g]

/-- **C76 violated.** A positive float below `2^-52` is answered as 0 by `into_u64`, without an error: the
comparison of the fraction is with `f64::EPSILON`. -/
theorem C76_violated_strict_u64_tiny (f : F64) (hf : f.finite = true) (hp : 0 < f.units)
    (h : f.units < F64.epsilon) : (Numeric.float f).asU64Strict = some 0 := by
  have hn : f.neg = false := by
    cases hn : f.neg with
    | false => rfl
    | true => exfalso; simp only [F64.units, hn, if_true] at hp; omega
  have hlt : f.units < unit := by
    have : F64.epsilon ≤ unit := by rw [unit_eps]; omega
    omega
  have hfr : f.fract = some (f.units.tmod unit) := by simp [F64.fract, hf]
  have hm : f.units.tmod unit = f.units := Int.tmod_eq_of_lt (by omega) hlt
  have hb : f.fractBelowEpsilon = true := by
    unfold F64.fractBelowEpsilon
    rw [hfr, hm]
    simpa using h
  simp only [Numeric.asU64Strict, hb, hn, and_self, if_true, Option.some.injEq]
  rw [toU64_units hf, Int.tdiv_eq_zero_of_lt (by omega) hlt]
  rfl

/-- **C76 violated.** `-0.0`, which is zero, is refused by `into_u64`. -/
theorem C76_violated_strict_u64_negative_zero :
    (Numeric.float ⟨true, 0, 0, by decide, by decide⟩).asU64Strict = none ∧
      (Numeric.float ⟨true, 0, 0, by decide, by decide⟩).exact = some (((0 : UInt64).toNat : Int) * unit) := by
  constructor
  · simp [Numeric.asU64Strict]
  · simp [Numeric.exact, F64.finite, F64.units, F64.mag]

/-! ## `f64` -/

/-- **C76.** What `into_f64` answers is exactly the stored number. -/
theorem C76_strict_f64_is_exact (n : Numeric F64) (f : F64) (h : n.asF64Strict = some f) :
    (Numeric.float f).exact = n.exact := by
  cases n with
  | float g =>
    simp only [Numeric.asF64Strict, Option.some.injEq] at h
    rw [h]
  | unsigned u =>
    simp only [Numeric.asF64Strict] at h
    split at h
    · cases h
    · rename_i hu
      simp only [Option.some.injEq] at h
      obtain ⟨h1, h2⟩ := C39_float_from_unsigned u (by omega)
      rw [asF64_unsigned] at h1 h2
      have e : f = F64.ofUnits (u.toNat * unit) := by rw [← h]; unfold F64.ofU64; with_reducible rfl
      rw [← e] at h1 h2
      simp only [Numeric.exact, h1, h2, if_true]
  | integer i =>
    simp only [Numeric.asF64Strict] at h
    split at h
    · cases h
    · rename_i hi
      simp only [Option.some.injEq] at h
      obtain ⟨h1, h2⟩ := C39_float_from_integer i (by omega)
      rw [asF64_integer] at h1 h2
      have e : f = F64.ofUnits (i.toInt * unit) := by rw [← h]; unfold F64.ofI64; with_reducible rfl
      rw [← e] at h1 h2
      simp only [Numeric.exact, h1, h2, if_true]

/-- **C76.** `into_f64` never refuses a float, nor an integer up to `2^53`. -/
theorem C76_strict_f64_accepts (n : Numeric F64)
    (h : ∀ k x, n.math = some (k, x) → -(2 ^ 53) ≤ x ∧ x ≤ 2 ^ 53) : ∃ f, n.asF64Strict = some f := by
  cases n with
  | float g => exact ⟨g, rfl⟩
  | unsigned u =>
    obtain ⟨h1, h2⟩ := h .unsigned u.toNat rfl
    exact ⟨_, by simp only [Numeric.asF64Strict]; rw [if_neg (by omega)]⟩
  | integer i =>
    obtain ⟨h1, h2⟩ := h .signed i.toInt rfl
    exact ⟨_, by simp only [Numeric.asF64Strict]; rw [if_neg (by omega)]⟩

/-! ## Lossy conversions -/

/-- **C76.** The lossy conversions of a finite float drop the fraction and answer the nearest number of the
type. -/
theorem C76_lossy_float (f : F64) (hf : f.finite = true) (s : Bool) :
    ((Numeric.float f).asI64 s).toInt = Kind.clamp .signed (f.units.tdiv unit) ∧
      (((Numeric.float f).asU64 s).toNat : Int) = Kind.clamp .unsigned (f.units.tdiv unit) := by
  constructor
  · show (f.toI64).toInt = _
    rw [toI64_units hf, satI64_toInt]
  · show ((f.toU64).toNat : Int) = _
    rw [toU64_units hf, satU64_toNat]

/-! ## Examples -/

/-- `3.0` and `2.5`. -/
def exThree : F64 := ⟨false, 1024, 2251799813685248, by decide, by decide⟩
def exTwoAndHalf : F64 := ⟨false, 1024, 1125899906842624, by decide, by decide⟩

example : (Numeric.float exThree).asU64Strict = some 3 ∧ (Numeric.float exTwoAndHalf).asU64Strict = none ∧
    (Numeric.float exThree).asI64Strict = some 3 ∧ (Numeric.float exTwoAndHalf).asI64Strict = none := by
  decide +kernel

/-- `1e300` is at least `2^63`; `1e-300` is below `2^-52`. -/
def exHuge : F64 := ⟨false, 2019, 2231397871024916, by decide, by decide⟩
def exTiny : F64 := ⟨false, 26, 2550232344389029, by decide, by decide⟩

example : exHuge.finite = true ∧ 2 ^ 63 * (unit : Int) ≤ exHuge.units ∧ 2 ^ 64 * (unit : Int) ≤ exHuge.units ∧
    exTiny.finite = true ∧ 0 < exTiny.units ∧ exTiny.units < F64.epsilon := by decide +kernel

end Bonsai.KV
