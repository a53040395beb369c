import Verif.KV.C39

/-!
# `f64`: IEEE 754 binary64, as far as the key-value store uses it

Every finite `f64` is a whole multiple of `2^-1074`, so numbers are counted in that unit: the integer `n`
is `n * unit` with `unit = 2^1074`.  Sums of two finite values are whole numbers of units too, so that
addition is integer addition and one rounding (to nearest, ties to even, as Rust's `+`, `-` and `as f64`).
All NaNs are one value class (`exp = 2047`, fraction not zero); which one an operation answers is not
specified by Rust and not observable here, as NaNs are never stored (C39).
-/
set_option linter.unusedSimpArgs false
set_option linter.unusedVariables false
set_option exponentiation.threshold 1100

namespace Bonsai.KV
open Bonsai

/-- The number 1 in units of `2^-1074`. -/
@[irreducible] def unit : Nat := 2 ^ 1074

theorem unit_pos : 0 < unit := by unfold unit; exact Nat.two_pow_pos 1074

/-- A binary64: sign bit, exponent field, fraction field. -/
structure F64 where
  neg : Bool
  exp : Nat
  frac : Nat
  hexp : exp < 2048
  hfrac : frac < 2 ^ 52
  deriving DecidableEq

namespace F64

def finite (x : F64) : Bool := decide (x.exp ≠ 2047)
def isNaN (x : F64) : Bool := decide (x.exp = 2047 ∧ x.frac ≠ 0)

/-- Magnitude of a finite value, in units. -/
def mag (x : F64) : Nat := if x.exp = 0 then x.frac else (2 ^ 52 + x.frac) * 2 ^ (x.exp - 1)

/-- A finite value, in units. -/
def units (x : F64) : Int := if x.neg then -(x.mag : Int) else x.mag

def inf (neg : Bool) : F64 := ⟨neg, 2047, 0, by decide, by decide⟩
def nan : F64 := ⟨false, 2047, 1, by decide, by decide⟩

/-- The rounded significand of `n ≥ 2^52`, and its shift: to nearest, ties to even. -/
def signif (n : Nat) : Nat × Nat :=
  let s := n.log2 - 52
  let q := n / 2 ^ s
  let r := n % 2 ^ s
  (if 2 ^ s < 2 * r ∨ (2 ^ s = 2 * r ∧ q % 2 = 1) then q + 1 else q, s)

theorem signif_bounds {n : Nat} (h : 2 ^ 52 ≤ n) :
    2 ^ 52 ≤ n / 2 ^ (n.log2 - 52) ∧ n / 2 ^ (n.log2 - 52) < 2 ^ 53 := by
  have hn : n ≠ 0 := by omega
  have h1 : 2 ^ n.log2 ≤ n := Nat.log2_self_le hn
  have h2 : n < 2 ^ (n.log2 + 1) := Nat.lt_log2_self
  have h3 : 52 ≤ n.log2 := by
    rcases Nat.lt_or_ge n.log2 52 with hlt | hge
    · exfalso
      have : 2 ^ (n.log2 + 1) ≤ 2 ^ 52 := Nat.pow_le_pow_right (by decide) (by omega)
      omega
    · exact hge
  constructor
  · rw [Nat.le_div_iff_mul_le (Nat.two_pow_pos _), ← Nat.pow_add]
    have : 52 + (n.log2 - 52) = n.log2 := by omega
    rw [this]; exact h1
  · rw [Nat.div_lt_iff_lt_mul (Nat.two_pow_pos _), ← Nat.pow_add]
    have : 53 + (n.log2 - 52) = n.log2 + 1 := by omega
    rw [this]; exact h2

theorem signif_le {n : Nat} (h : 2 ^ 52 ≤ n) : 2 ^ 52 ≤ (signif n).1 ∧ (signif n).1 ≤ 2 ^ 53 := by
  have := signif_bounds h
  unfold signif
  dsimp only
  split <;> omega

/-- The `f64` nearest to `n` units, with a sign: ties to even, too large is infinite. -/
def round (neg : Bool) (n : Nat) : F64 :=
  if h : n < 2 ^ 52 then ⟨neg, 0, n, by decide, h⟩
  else
    let p := signif n
    if h1 : p.1 = 2 ^ 53 then
      if h2 : p.2 + 2 < 2047 then ⟨neg, p.2 + 2, 0, by omega, by decide⟩ else inf neg
    else
      if h2 : p.2 + 1 < 2047 then
        ⟨neg, p.2 + 1, p.1 - 2 ^ 52, by omega, by
          have := signif_le (Nat.le_of_not_lt h)
          have e : p.1 = (signif n).1 := rfl
          omega⟩
      else inf neg

/-- Whole units to `f64`. -/
def ofUnits (x : Int) : F64 := round (decide (x < 0)) x.natAbs

/-- `a + b`: NaN and infinity rules of IEEE 754; `-0.0 + -0.0` is `-0.0`. -/
def add (a b : F64) : F64 :=
  if a.isNaN ∨ b.isNaN then nan
  else if a.finite then
    if b.finite then
      if a.neg = true ∧ b.neg = true ∧ a.mag = 0 ∧ b.mag = 0 then a else ofUnits (a.units + b.units)
    else b
  else if b.finite then a
  else if a.neg = b.neg then a else nan

def opp (a : F64) : F64 := { a with neg := !a.neg }

/-- `a - b`. -/
def sub (a b : F64) : F64 := add a b.opp

/-- `x as i64`: NaN is 0, towards zero, saturating. -/
def toI64 (x : F64) : Int64 :=
  if x.isNaN then 0
  else if x.finite then satI64 (x.units.tdiv unit)
  else if x.neg then Int64.minValue else Int64.maxValue

/-- `x as u64`. -/
def toU64 (x : F64) : UInt64 :=
  if x.isNaN then 0
  else if x.finite then satU64 (x.units.tdiv unit)
  else if x.neg then 0 else UInt64.ofNat (2 ^ 64 - 1)

/-- `x.fract()`, in units; `none` is NaN. -/
def fract (x : F64) : Option Int := if x.finite then some (x.units.tmod unit) else none

/-- `i as f64`. -/
def ofI64 (i : Int64) : F64 := ofUnits (i.toInt * unit)
def ofU64 (u : UInt64) : F64 := ofUnits (u.toNat * unit)

instance : FloatOps F64 := ⟨add, sub, isNaN, toI64, toU64, ofI64, ofU64⟩

theorem ofI64_eq (i : Int64) : (FloatOps.ofI64 i : F64) = ofUnits (i.toInt * unit) :=
  Eq.trans (b := ofI64 i) (by with_reducible_and_instances rfl) (by unfold ofI64; with_reducible rfl)

theorem ofU64_eq (u : UInt64) : (FloatOps.ofU64 u : F64) = ofUnits (u.toNat * unit) :=
  Eq.trans (b := ofU64 u) (by with_reducible_and_instances rfl) (by unfold ofU64; with_reducible rfl)

/-! ## Rounding is correct -/

theorem mag_lt_or {x : F64} : x.exp = 0 ∧ x.mag < 2 ^ 52 ∨
    0 < x.exp ∧ 2 ^ 52 * 2 ^ (x.exp - 1) ≤ x.mag ∧ x.mag < 2 ^ 53 * 2 ^ (x.exp - 1) ∧
      2 ^ (x.exp - 1) ∣ x.mag := by
  unfold mag
  by_cases h : x.exp = 0
  · left; simp only [h, if_true]; exact ⟨trivial, x.hfrac⟩
  · right
    simp only [h, if_false]
    have := x.hfrac
    refine ⟨by omega, Nat.mul_le_mul_right _ (by omega), ?_, Nat.dvd_mul_left _ _⟩
    exact Nat.mul_lt_mul_of_pos_right (by omega) (Nat.two_pow_pos _)

/-- A finite magnitude of at least `2^52 * 2^s` is a multiple of `2^s`. -/
theorem mag_grid {x : F64} {s : Nat} (h : 2 ^ 52 * 2 ^ s ≤ x.mag) : 2 ^ s ∣ x.mag := by
  rcases mag_lt_or (x := x) with ⟨_, h1⟩ | ⟨_, _, h2, h3⟩
  · exfalso
    have := Nat.two_pow_pos s
    have : 2 ^ 52 * 1 ≤ 2 ^ 52 * 2 ^ s := Nat.mul_le_mul_left _ this
    omega
  · refine Nat.dvd_trans (Nat.pow_dvd_pow 2 ?_) h3
    rcases Nat.lt_or_ge (x.exp - 1) s with hlt | hge
    · exfalso
      have : 2 ^ 53 * 2 ^ (x.exp - 1) ≤ 2 ^ 52 * 2 ^ s := by
        have e : (2 : Nat) ^ 53 * 2 ^ (x.exp - 1) = 2 ^ 52 * 2 ^ (x.exp - 1 + 1) := by
          rw [Nat.pow_succ]; omega
        rw [e]
        exact Nat.mul_le_mul_left _ (Nat.pow_le_pow_right (by decide) (by omega))
      omega
    · exact hge

/-- The magnitude of a rounded number. -/
theorem round_mag {neg : Bool} {n : Nat} (hf : (round neg n).finite = true) :
    (round neg n).neg = neg ∧
      (round neg n).mag = if n < 2 ^ 52 then n else (signif n).1 * 2 ^ (signif n).2 := by
  unfold round at hf ⊢
  by_cases h : n < 2 ^ 52
  · simp [h, mag]
  · simp only [h, dite_false, if_false] at hf ⊢
    by_cases h1 : (signif n).1 = 2 ^ 53
    · simp only [h1, dite_true] at hf ⊢
      by_cases h2 : (signif n).2 + 2 < 2047
      · simp only [h2, dite_true, mag]
        refine ⟨trivial, ?_⟩
        rw [if_neg (by omega)]
        have : (signif n).2 + 2 - 1 = (signif n).2 + 1 := by omega
        rw [this, Nat.pow_succ]
        omega
      · simp [h2, inf, finite] at hf
    · simp only [h1, dite_false] at hf ⊢
      by_cases h2 : (signif n).2 + 1 < 2047
      · simp only [h2, dite_true, mag]
        refine ⟨trivial, ?_⟩
        rw [if_neg (by omega)]
        have := signif_le (Nat.le_of_not_lt h)
        have e : 2 ^ 52 + ((signif n).1 - 2 ^ 52) = (signif n).1 := by omega
        rw [e, Nat.add_sub_cancel]
      · simp [h2, inf, finite] at hf

/-- Distance of natural numbers. -/
def dist (a b : Nat) : Nat := (a - b) + (b - a)

theorem signif_near {n y : Nat} (h : 2 ^ 52 ≤ n) (hy : 2 ^ 52 * 2 ^ (signif n).2 ≤ y →
    2 ^ (signif n).2 ∣ y) : dist ((signif n).1 * 2 ^ (signif n).2) n ≤ dist y n := by
  have hb := signif_bounds h
  have hs : (signif n).2 = n.log2 - 52 := rfl
  rw [hs] at hy ⊢
  have hd : n / 2 ^ (n.log2 - 52) * 2 ^ (n.log2 - 52) + n % 2 ^ (n.log2 - 52) = n := by
    rw [Nat.mul_comm]; exact Nat.div_add_mod _ _
  have hm := Nat.mod_lt n (Nat.two_pow_pos (n.log2 - 52))
  unfold signif
  dsimp only
  generalize hS : 2 ^ (n.log2 - 52) = S at *
  generalize n / S = q at *
  generalize n % S = r at *
  -- `y` is at most `q * S` or at least `(q + 1) * S`
  have hside : y ≤ q * S ∨ (q + 1) * S ≤ y := by
    rcases Nat.lt_or_ge y (2 ^ 52 * S) with hlt | hge
    · left
      have : 2 ^ 52 * S ≤ q * S := Nat.mul_le_mul_right _ hb.1
      omega
    · obtain ⟨k, rfl⟩ := hy hge
      rcases Nat.lt_or_ge q k with hk | hk
      · right; rw [Nat.mul_comm S k]; exact Nat.mul_le_mul_right _ hk
      · left; rw [Nat.mul_comm S k]; exact Nat.mul_le_mul_right _ hk
  have hq1 : (q + 1) * S = q * S + S := by rw [Nat.add_mul, Nat.one_mul]
  rw [hq1] at hside
  unfold dist
  split
  · rw [hq1]; omega
  · omega

/-- **Rounding is to nearest**: no finite `f64` is closer to `n` units than the rounded one. -/
theorem round_nearest {neg : Bool} {n : Nat} (hf : (round neg n).finite = true) (y : F64) :
    dist (round neg n).mag n ≤ dist y.mag n := by
  rw [(round_mag hf).2]
  by_cases h : n < 2 ^ 52
  · simp [h, dist]
  · simp only [h, if_false]
    exact signif_near (Nat.le_of_not_lt h) fun hy => mag_grid hy

/-- A representable magnitude is not changed. -/
theorem round_exact {neg : Bool} {n : Nat} (y : F64) (hy : y.mag = n) (hfin : y.finite = true) :
    (round neg n).finite = true ∧ (round neg n).mag = n := by
  suffices hf : (round neg n).finite = true by
    have := round_nearest hf y
    rw [hy] at this
    refine ⟨hf, ?_⟩
    unfold dist at this
    omega
  by_cases h : n < 2 ^ 52
  · simp [round, h, finite]
  · have hn : 2 ^ 52 ≤ n := Nat.le_of_not_lt h
    have hnear := signif_near (y := y.mag) hn fun hy => mag_grid hy
    rw [hy] at hnear
    have he : (signif n).1 * 2 ^ (signif n).2 = n := by unfold dist at hnear; omega
    have hle := signif_le hn
    rcases mag_lt_or (x := y) with ⟨_, h1⟩ | ⟨h0, _, h2, _⟩
    · omega
    · have hyexp := y.hexp
      have hfe : y.exp ≠ 2047 := by simpa [finite] using hfin
      rw [hy] at h2
      have key : ∀ k, 2 ^ 52 * 2 ^ k ≤ n → k < y.exp := by
        intro k hk
        rcases Nat.lt_or_ge k y.exp with hlt | hge
        · exact hlt
        · exfalso
          have : 2 ^ 53 * 2 ^ (y.exp - 1) ≤ 2 ^ 52 * 2 ^ k := by
            have e : (2 : Nat) ^ 53 * 2 ^ (y.exp - 1) = 2 ^ 52 * 2 ^ (y.exp - 1 + 1) := by
              rw [Nat.pow_succ]; omega
            rw [e]
            exact Nat.mul_le_mul_left _ (Nat.pow_le_pow_right (by decide) (by omega))
          omega
      unfold round
      simp only [h, dite_false]
      by_cases h1 : (signif n).1 = 2 ^ 53
      · have : (signif n).2 + 1 < y.exp := key _ (by
          rw [h1] at he; rw [Nat.pow_succ]; omega)
        simp only [h1, dite_true]
        rw [dif_pos (by omega)]
        simp [finite]; omega
      · have : (signif n).2 < y.exp := key _ (by
          exact Nat.le_trans (Nat.mul_le_mul_right _ hle.1) (Nat.le_of_eq he))
        simp only [h1, dite_false]
        rw [dif_pos (by omega)]
        simp [finite]; omega

end F64
end Bonsai.KV
