import Verif.KV.F64

/-!
# C39 for floating point numbers
-/
set_option linter.unusedSimpArgs false
set_option linter.unusedVariables false
set_option exponentiation.threshold 2100

namespace Bonsai.KV
open Bonsai
namespace F64

/-! ## Specification: IEEE 754 round to nearest, ties to even -/

/-- `r` is the rounding of the real number `x` (in units of `2^-1074`). -/
def Rounds (x : Int) (r : F64) : Prop :=
  r.finite = true ∧
  (∀ y : F64, y.finite = true → (r.units - x).natAbs ≤ (y.units - x).natAbs) ∧
  (∀ y : F64, y.finite = true → y.units ≠ r.units → (y.units - x).natAbs = (r.units - x).natAbs →
    r.frac % 2 = 0)

/-- From here on (in units) numbers are too large: the largest finite `f64` and half a step. -/
@[irreducible] def tooLarge : Nat := (2 ^ 54 - 1) * 2 ^ 2044

/-! ## The model's rounding meets it -/

theorem even_signif {n y : Nat} (h : 2 ^ 52 ≤ n)
    (hy : 2 ^ 52 * 2 ^ (signif n).2 ≤ y → 2 ^ (signif n).2 ∣ y)
    (hne : y ≠ (signif n).1 * 2 ^ (signif n).2)
    (heq : dist y n = dist ((signif n).1 * 2 ^ (signif n).2) n) : (signif n).1 % 2 = 0 := by
  have hb := signif_bounds h
  have hs : (signif n).2 = n.log2 - 52 := rfl
  rw [hs] at hy hne heq
  have hd : n / 2 ^ (n.log2 - 52) * 2 ^ (n.log2 - 52) + n % 2 ^ (n.log2 - 52) = n := by
    rw [Nat.mul_comm]; exact Nat.div_add_mod _ _
  have hm := Nat.mod_lt n (Nat.two_pow_pos (n.log2 - 52))
  unfold signif at *
  dsimp only at *
  generalize hS : 2 ^ (n.log2 - 52) = S at *
  generalize n / S = q at *
  generalize n % S = r at *
  have hside : y ≤ q * S ∨ (q + 1) * S ≤ y := by
    rcases Nat.lt_or_ge y (2 ^ 52 * S) with hlt | hge
    · left
      have : 2 ^ 52 * S ≤ q * S := Nat.mul_le_mul_right _ hb.1
      omega
    · obtain ⟨k, rfl⟩ := hy hge
      rcases Nat.lt_or_ge q k with hk | hk
      · right; rw [Nat.mul_comm S k]; exact Nat.mul_le_mul_right _ hk
      · left; rw [Nat.mul_comm S k]; exact Nat.mul_le_mul_right _ hk
  have hq1 : (q + 1) * S = q * S + S := by rw [Nat.add_mul, Nat.one_mul]
  rw [hq1] at hside
  unfold dist at heq
  by_cases hc : S < 2 * r ∨ (S = 2 * r ∧ q % 2 = 1)
  · simp only [hc, if_true] at hne heq ⊢
    rw [hq1] at hne heq
    omega
  · simp only [hc, if_false] at hne heq ⊢
    have h2 : ¬ S < 2 * r := fun h => hc (.inl h)
    by_cases h3 : q % 2 = 1
    · exfalso
      have : ¬ S = 2 * r := fun h => hc (.inr ⟨h, h3⟩)
      omega
    · omega

/-- Fraction of a rounded number. -/
theorem round_even {neg : Bool} {n : Nat} (hf : (round neg n).finite = true) (y : F64)
    (hne : y.mag ≠ (round neg n).mag) (heq : dist y.mag n = dist (round neg n).mag n) :
    (round neg n).frac % 2 = 0 := by
  have hm := (round_mag hf).2
  by_cases h : n < 2 ^ 52
  · rw [hm, if_pos h] at hne heq
    unfold dist at heq
    omega
  · rw [hm, if_neg h] at hne heq
    have he := even_signif (Nat.le_of_not_lt h) (fun hy => mag_grid hy) hne heq
    have hle := signif_le (Nat.le_of_not_lt h)
    unfold round at hf ⊢
    simp only [h, dite_false] at hf ⊢
    by_cases h1 : (signif n).1 = 2 ^ 53
    · simp only [h1, dite_true] at hf ⊢
      split <;> simp [inf]
    · simp only [h1, dite_false] at hf ⊢
      split
      · show ((signif n).1 - 2 ^ 52) % 2 = 0
        omega
      · simp [inf]

theorem log2_eq {n k : Nat} (h1 : 2 ^ k ≤ n) (h2 : n < 2 ^ (k + 1)) : n.log2 = k := by
  have hn : n ≠ 0 := by have := Nat.two_pow_pos k; omega
  have h3 := Nat.log2_self_le hn
  have h4 := @Nat.lt_log2_self n
  rcases Nat.lt_trichotomy n.log2 k with hlt | he | hgt
  · exfalso
    have : 2 ^ (n.log2 + 1) ≤ 2 ^ k := Nat.pow_le_pow_right (by decide) hlt
    omega
  · exact he
  · exfalso
    have : 2 ^ (k + 1) ≤ 2 ^ n.log2 := Nat.pow_le_pow_right (by decide) hgt
    omega

theorem tooLarge_eq {P : Nat} (hP : (2 : Nat) ^ 2044 = P) : tooLarge = (2 ^ 54 - 1) * P := by
  unfold tooLarge; rw [hP]

/-- Exactly the numbers from `tooLarge` on become infinite. -/
theorem round_finite_iff (neg : Bool) (n : Nat) : (round neg n).finite = true ↔ n < tooLarge := by
  by_cases h : n < 2 ^ 52
  · have : n < tooLarge := by
      have : 2 ^ 52 * 1 ≤ (2 ^ 54 - 1) * 2 ^ 2044 :=
        Nat.mul_le_mul (by decide) (Nat.two_pow_pos 2044)
      unfold tooLarge
      omega
    simp only [this, iff_true]
    simp [round, h, finite]
  · have hn : 2 ^ 52 ≤ n := Nat.le_of_not_lt h
    have hb := signif_bounds hn
    have hle := signif_le hn
    have hs : (signif n).2 = n.log2 - 52 := rfl
    have hn0 : n ≠ 0 := by omega
    have hl1 := Nat.log2_self_le hn0
    have hl2 := @Nat.lt_log2_self n
    have hfin : (round neg n).finite = true ↔
        ((signif n).1 = 2 ^ 53 ∧ (signif n).2 + 2 < 2047) ∨
        ((signif n).1 ≠ 2 ^ 53 ∧ (signif n).2 + 1 < 2047) := by
      unfold round
      simp only [h, dite_false]
      by_cases h1 : (signif n).1 = 2 ^ 53
      · simp only [h1, dite_true]
        by_cases h2 : (signif n).2 + 2 < 2047
        · simp [h2, finite]; omega
        · simp [h2, finite, inf]
      · simp only [h1, dite_false]
        by_cases h2 : (signif n).2 + 1 < 2047
        · simp [h2, finite, h1]; omega
        · simp [h2, finite, inf, h1]
    rw [hfin]
    -- compare the exponent with the largest one
    have hp1 : (2 : Nat) ^ 2097 = 2 ^ 53 * 2 ^ 2044 := by rw [← Nat.pow_add]
    have hp2 : (2 : Nat) ^ 2098 = 2 ^ 54 * 2 ^ 2044 := by rw [← Nat.pow_add]
    have hp3 : (2 : Nat) ^ 2045 = 2 * 2 ^ 2044 := by rw [Nat.pow_succ, Nat.mul_comm]
    rcases Nat.lt_trichotomy n.log2 2097 with hlt | he | hgt
    · have hs' : (signif n).2 + 2 < 2047 := by omega
      have hlt' : n < 2 ^ 2097 := Nat.lt_of_lt_of_le hl2 (Nat.pow_le_pow_right (by decide) (by omega))
      have : n < tooLarge := by
        rw [hp1] at hlt'
        generalize hP : (2 : Nat) ^ 2044 = P at hlt'
        rw [tooLarge_eq hP]
        omega
      simp only [this, iff_true]
      by_cases h1 : (signif n).1 = 2 ^ 53
      · exact .inl ⟨h1, hs'⟩
      · exact .inr ⟨h1, by omega⟩
    · have hs' : (signif n).2 = 2045 := by omega
      rw [hs']
      have hd : n / 2 ^ 2045 * 2 ^ 2045 + n % 2 ^ 2045 = n := by
        rw [Nat.mul_comm]; exact Nat.div_add_mod _ _
      have hm := Nat.mod_lt n (Nat.two_pow_pos 2045)
      have hsig : (signif n).1 =
          if 2 ^ 2045 < 2 * (n % 2 ^ 2045) ∨ (2 ^ 2045 = 2 * (n % 2 ^ 2045) ∧ n / 2 ^ 2045 % 2 = 1)
          then n / 2 ^ 2045 + 1 else n / 2 ^ 2045 := by
        unfold signif
        simp only [he]
      have hb' : 2 ^ 52 ≤ n / 2 ^ 2045 ∧ n / 2 ^ 2045 < 2 ^ 53 := by
        have := hb
        rw [he] at this
        exact this
      clear hl1 hl2 hp1 hp2 hfin
      have key : (signif n).1 = 2 ^ 53 ↔ ¬ n < tooLarge := by
        rw [hsig]
        rw [hp3] at *
        generalize hP : (2 : Nat) ^ 2044 = P at *
        rw [tooLarge_eq hP]
        generalize n / (2 * P) = q at *
        generalize n % (2 * P) = r at *
        have hq : q * (2 * P) = 2 * (q * P) := by rw [Nat.mul_left_comm]
        rw [hq] at hd
        rcases Nat.lt_or_ge q (2 ^ 53 - 1) with hq1 | hq1
        · have : q * P ≤ (2 ^ 53 - 2) * P := Nat.mul_le_mul_right _ (by omega)
          split
          · constructor
            · intro; omega
            · intro; omega
          · constructor
            · intro; omega
            · intro; omega
        · have hq2 : q = 2 ^ 53 - 1 := by omega
          subst hq2
          split
          · constructor
            · intro _; omega
            · intro; omega
          · constructor
            · intro; omega
            · intro hh
              exfalso
              rename_i hc
              exact hc (by omega)
      by_cases h1 : (signif n).1 = 2 ^ 53
      · have := key.mp h1
        simp only [this, iff_false]
        omega
      · have : n < tooLarge := Decidable.not_not.mp fun hh => h1 (key.mpr hh)
        simp only [this, iff_true]
        exact .inr ⟨h1, by omega⟩
    · have hs' : 2046 ≤ (signif n).2 := by omega
      have hge : 2 ^ 2098 ≤ n := Nat.le_trans (Nat.pow_le_pow_right (by decide) hgt) hl1
      have : ¬ n < tooLarge := by
        rw [hp2] at hge
        generalize hP : (2 : Nat) ^ 2044 = P at hge
        rw [tooLarge_eq hP]
        omega
      simp only [this, iff_false]
      omega

theorem natAbs_units (x : F64) : x.units.natAbs = x.mag := by
  unfold units; split <;> simp

theorem round_inf {neg : Bool} {n : Nat} (h : ¬ (round neg n).finite = true) : round neg n = inf neg := by
  unfold round at h ⊢
  by_cases hn : n < 2 ^ 52
  · simp [hn, finite] at h
  · simp only [hn, dite_false] at h ⊢
    split
    · rename_i h1
      split
      · rename_i h2
        simp only [h1, h2, dite_true] at h
        simp [finite] at h
        omega
      · rfl
    · rename_i h1
      split
      · rename_i h2
        simp only [h1, h2, dite_true, dite_false] at h
        simp [finite] at h
        omega
      · rfl

theorem ofUnits_rounds {x : Int} (h : x.natAbs < tooLarge) : Rounds x (ofUnits x) := by
  have hf := (round_finite_iff (decide (x < 0)) x.natAbs).mpr h
  have hneg := (round_mag hf).1
  have hd : ∀ y : F64, dist y.mag x.natAbs ≤ (y.units - x).natAbs := by
    intro y
    unfold dist units
    split <;> omega
  have hr : ((ofUnits x).units - x).natAbs = dist (ofUnits x).mag x.natAbs := by
    unfold ofUnits dist units
    rw [hneg]
    by_cases hx : x < 0
    · simp only [hx, decide_true, if_true]; omega
    · simp only [hx, decide_false, Bool.false_eq_true, if_false]; omega
  refine ⟨hf, ?_, ?_⟩
  · intro y hy
    rw [hr]
    exact Nat.le_trans (round_nearest hf y) (hd y)
  · intro y hy hne heq
    rw [hr] at heq
    have hnear := round_nearest hf y
    have hdy := hd y
    have e1 : dist y.mag x.natAbs = dist (ofUnits x).mag x.natAbs := by
      have : dist (ofUnits x).mag x.natAbs = dist (round (decide (x < 0)) x.natAbs).mag x.natAbs := rfl
      omega
    by_cases hm : y.mag = (ofUnits x).mag
    · -- same magnitude, opposite sign: then one of them is not nearest unless both are zero
      exfalso
      apply hne
      have e2 : (y.units - x).natAbs = dist y.mag x.natAbs := by omega
      have hx : (ofUnits x).units = if x < 0 then -((ofUnits x).mag : Int) else (ofUnits x).mag := by
        unfold units
        rw [show (ofUnits x).neg = decide (x < 0) from hneg]
        by_cases hx : x < 0 <;> simp [hx]
      have hzero := round_nearest hf ⟨false, 0, 0, by decide, by decide⟩
      have hzm : (⟨false, 0, 0, by decide, by decide⟩ : F64).mag = 0 := rfl
      rw [hzm, show (round (decide (x < 0)) x.natAbs).mag = y.mag from hm.symm] at hzero
      rw [hx, ← hm]
      unfold dist at hzero e2
      have hu : y.units = if y.neg then -(y.mag : Int) else y.mag := rfl
      rw [hu] at e2 ⊢
      cases hyn : y.neg <;> rw [hyn] at e2 <;> by_cases hx0 : x < 0 <;>
        simp only [hx0, if_true, if_false, Bool.false_eq_true] at e2 ⊢ <;> omega
    · exact round_even hf y hm e1

theorem ofUnits_inf {x : Int} (h : tooLarge ≤ x.natAbs) : ofUnits x = inf (decide (x < 0)) := by
  apply round_inf
  rw [round_finite_iff]
  omega

/-- **C39**, floating point: the sum of finite numbers is the nearest `f64` (ties to even), infinite if
it is too large, never NaN. -/
theorem C39_float_add (a b : F64) (ha : a.finite = true) (hb : b.finite = true) :
    ((a.units + b.units).natAbs < tooLarge → Rounds (a.units + b.units) (add a b)) ∧
    (tooLarge ≤ (a.units + b.units).natAbs → add a b = inf (decide (a.units + b.units < 0))) := by
  have hna : a.isNaN = false := by
    simp only [finite, decide_eq_true_eq] at ha
    simp [isNaN, ha]
  have hnb : b.isNaN = false := by
    simp only [finite, decide_eq_true_eq] at hb
    simp [isNaN, hb]
  simp only [add, hna, hnb, ha, hb, if_true, Bool.false_eq_true, or_self, if_false]
  by_cases hz : a.neg = true ∧ b.neg = true ∧ a.mag = 0 ∧ b.mag = 0
  · rw [if_pos hz]
    obtain ⟨h1, h2, h3, h4⟩ := hz
    have e : a.units + b.units = 0 := by simp [units, h1, h2, h3, h4]
    have ea : a.units = 0 := by simp [units, h1, h3]
    rw [e]
    refine ⟨fun _ => ⟨ha, ?_, ?_⟩, ?_⟩
    · intro y _; rw [ea]; simp
    · intro y _ hne he
      rw [ea] at hne he
      exfalso; apply hne; omega
    · intro h
      exfalso
      have h0 : 0 < tooLarge := by
        unfold tooLarge
        exact Nat.mul_pos (by decide) (Nat.two_pow_pos _)
      have hz : (0 : Int).natAbs = 0 := rfl
      omega
  · rw [if_neg hz]
    exact ⟨fun h => ofUnits_rounds h, fun h => ofUnits_inf h⟩

/-- Integers up to `2^53` have an `f64`. -/
theorem small_int {n : Nat} (h : n ≤ 2 ^ 53) : ∃ y : F64, y.finite = true ∧ y.mag = n * unit := by
  have norm : ∀ m j, 2 ^ 52 ≤ m → m < 2 ^ 53 → j + 1 < 2047 →
      ∃ y : F64, y.finite = true ∧ y.mag = m * 2 ^ j := by
    intro m j h1 h2 h3
    refine ⟨⟨false, j + 1, m - 2 ^ 52, by omega, by omega⟩, by simp [finite]; omega, ?_⟩
    unfold mag
    simp only [Nat.add_one_ne_zero, if_false, Nat.add_sub_cancel]
    have e : 2 ^ 52 + (m - 2 ^ 52) = m := by omega
    rw [e]
  by_cases h0 : n = 0
  · exact ⟨⟨false, 0, 0, by decide, by decide⟩, rfl, by simp [h0, mag]⟩
  · by_cases h53 : n = 2 ^ 53
    · obtain ⟨y, h1, h2⟩ := norm (2 ^ 52) 1075 (Nat.le_refl _) (by decide) (by decide)
      refine ⟨y, h1, ?_⟩
      rw [h2, h53]
      unfold unit
      rw [show (2 : Nat) ^ 1075 = 2 ^ 1074 * 2 from Nat.pow_succ 2 1074]
    · have hl1 := Nat.log2_self_le h0
      have hl2 := @Nat.lt_log2_self n
      have hk : n.log2 ≤ 52 := by
        rcases Nat.lt_or_ge 52 n.log2 with hgt | hle
        · exfalso
          have : 2 ^ 53 ≤ 2 ^ n.log2 := Nat.pow_le_pow_right (by decide) hgt
          omega
        · exact hle
      have g1 : 2 ^ 52 ≤ n * 2 ^ (52 - n.log2) := by
        have : 2 ^ n.log2 * 2 ^ (52 - n.log2) ≤ n * 2 ^ (52 - n.log2) := Nat.mul_le_mul_right _ hl1
        rw [← Nat.pow_add] at this
        have e : n.log2 + (52 - n.log2) = 52 := by omega
        rw [e] at this
        exact this
      have g2 : n * 2 ^ (52 - n.log2) < 2 ^ 53 := by
        have : n * 2 ^ (52 - n.log2) < 2 ^ (n.log2 + 1) * 2 ^ (52 - n.log2) :=
          Nat.mul_lt_mul_of_pos_right hl2 (Nat.two_pow_pos _)
        rw [← Nat.pow_add] at this
        have e : n.log2 + 1 + (52 - n.log2) = 53 := by omega
        rw [e] at this
        exact this
      obtain ⟨y, h1, h2⟩ := norm (n * 2 ^ (52 - n.log2)) (1022 + n.log2) g1 g2 (by omega)
      refine ⟨y, h1, ?_⟩
      rw [h2, Nat.mul_assoc, ← Nat.pow_add]
      have : 52 - n.log2 + (1022 + n.log2) = 1074 := by omega
      rw [this]; unfold unit; rfl

theorem ofUnits_exact {x : Int} (y : F64) (hf : y.finite = true) (hy : y.mag = x.natAbs) :
    (ofUnits x).finite = true ∧ (ofUnits x).units = x := by
  obtain ⟨h1, h2⟩ := round_exact (neg := decide (x < 0)) y hy hf
  refine ⟨h1, ?_⟩
  have h3 := (round_mag h1).1
  unfold ofUnits units
  rw [h3, h2]
  by_cases hx : x < 0
  · simp only [hx, decide_true, if_true]; omega
  · simp only [hx, decide_false, Bool.false_eq_true, if_false]; omega

theorem opp_units (x : F64) : x.opp.units = -x.units := by
  have hm : x.opp.mag = x.mag := rfl
  have hn : x.opp.neg = !x.neg := rfl
  unfold units
  rw [hm, hn]
  cases x.neg <;> simp

theorem opp_finite (x : F64) : x.opp.finite = x.finite := rfl

/-- **C39**: a sum or difference of numbers is not a number exactly for infinities that cancel. -/
theorem C39_float_nan (a b : F64) (ha : a.isNaN = false) (hb : b.isNaN = false) :
    (add a b).isNaN = true ↔ a.finite = false ∧ b.finite = false ∧ a.neg ≠ b.neg := by
  have hround : ∀ neg n, (round neg n).isNaN = false := by
    intro neg n
    cases hf : (round neg n).finite with
    | true =>
      simp only [finite, decide_eq_true_eq] at hf
      simp [isNaN, hf]
    | false =>
      rw [round_inf (by rw [hf]; decide)]
      rfl
  simp only [add, ha, hb, Bool.false_eq_true, or_self, if_false]
  cases hfa : a.finite <;> cases hfb : b.finite <;> simp only [if_true, if_false, Bool.false_eq_true]
  · by_cases hn : a.neg = b.neg
    · simp [hn, ha]
    · simp [hn]; rfl
  · simp [ha]
  · simp [hb]
  · split
    · simp [ha]
    · simp [ofUnits, hround]

end F64

/-! ## Increments and decrements of stored numbers -/

/-- **C39**, floating point: incrementing a stored `f64` by an `f64` stores the nearest `f64` to the exact
sum; too large is infinite.  Saturation makes no difference. -/
theorem C39_float_increment (n a : F64) (s : Bool) (hn : n.finite = true) (ha : a.finite = true) :
    ∃ r, increment (.float n) (.float a) s = .float r ∧
      ((n.units + a.units).natAbs < F64.tooLarge → F64.Rounds (n.units + a.units) r) ∧
      (F64.tooLarge ≤ (n.units + a.units).natAbs → r = F64.inf (decide (n.units + a.units < 0))) :=
  ⟨_, rfl, F64.C39_float_add n a hn ha⟩

/-- **C39**: likewise for decrements. -/
theorem C39_float_decrement (n a : F64) (s : Bool) (hn : n.finite = true) (ha : a.finite = true) :
    ∃ r, decrement (.float n) (.float a) s = .float r ∧
      ((n.units - a.units).natAbs < F64.tooLarge → F64.Rounds (n.units - a.units) r) ∧
      (F64.tooLarge ≤ (n.units - a.units).natAbs → r = F64.inf (decide (n.units - a.units < 0))) := by
  refine ⟨_, rfl, ?_⟩
  have := F64.C39_float_add n a.opp hn ha
  rw [F64.opp_units, ← Int.sub_eq_add_neg] at this
  exact this

theorem asF64_int_gen {F : Type} [FloatOps F] (i : Int64) :
    Numeric.asF64 (.integer i : Numeric F) = FloatOps.ofI64 i := rfl

theorem asF64_uns_gen {F : Type} [FloatOps F] (u : UInt64) :
    Numeric.asF64 (.unsigned u : Numeric F) = FloatOps.ofU64 u := rfl

theorem asF64_integer (i : Int64) :
    Numeric.asF64 (.integer i : Numeric F64) = F64.ofUnits (i.toInt * unit) :=
  (asF64_int_gen i).trans (F64.ofI64_eq i)

theorem asF64_unsigned (u : UInt64) :
    Numeric.asF64 (.unsigned u : Numeric F64) = F64.ofUnits (u.toNat * unit) :=
  (asF64_uns_gen u).trans (F64.ofU64_eq u)

/-- **C39**: an integer counter of at most `2^53` becomes an `f64` without loss when it is incremented by
an `f64`. -/
theorem C39_float_from_integer (i : Int64) (h : i.toInt.natAbs ≤ 2 ^ 53) :
    (Numeric.asF64 (.integer i : Numeric F64)).finite = true ∧
      (Numeric.asF64 (.integer i : Numeric F64)).units = i.toInt * unit := by
  obtain ⟨y, h1, h2⟩ := F64.small_int h
  have key := F64.ofUnits_exact (x := i.toInt * unit) y h1 (by rw [h2, Int.natAbs_mul, Int.natAbs_natCast])
  rw [asF64_integer]
  exact key

theorem C39_float_from_unsigned (u : UInt64) (h : u.toNat ≤ 2 ^ 53) :
    (Numeric.asF64 (.unsigned u : Numeric F64)).finite = true ∧
      (Numeric.asF64 (.unsigned u : Numeric F64)).units = u.toNat * unit := by
  obtain ⟨y, h1, h2⟩ := F64.small_int h
  have key := F64.ofUnits_exact (x := u.toNat * unit) y h1
    (by rw [h2, Int.natAbs_mul, Int.natAbs_natCast, Int.natAbs_natCast])
  rw [asF64_unsigned]
  exact key

/-! ## Examples -/

section
def exF (exp frac : Nat) (h1 : exp < 2048 := by decide) (h2 : frac < 2 ^ 52 := by omega) : F64 :=
  ⟨false, exp, frac, h1, h2⟩

/-- `0.1 + 0.2 = 0.30000000000000004`, a rounded sum. -/
example : F64.add (exF 1019 2702159776422298) (exF 1020 2702159776422298) =
    exF 1021 900719925474100 := by decide +kernel

/-- `1.0 + 1.0 = 2.0`; `2^53 + 1` is a tie and goes to the even neighbour. -/
example : F64.add (exF 1023 0) (exF 1023 0) = exF 1024 0 ∧
    F64.add (exF 1076 0) (exF 1023 0) = exF 1076 0 ∧ F64.add (exF 1076 1) (exF 1023 0) = exF 1076 2 := by
  decide +kernel

/-- The largest `f64` twice is infinite. -/
example : F64.add (exF 2046 4503599627370495) (exF 2046 4503599627370495) = F64.inf false := by
  decide +kernel
end

end Bonsai.KV
