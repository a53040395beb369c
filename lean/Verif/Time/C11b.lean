import Verif.Time.C11

set_option linter.unusedSimpArgs false

/-! # C11, second part: rounding of limited-resolution durations -/

namespace Bonsai.Time

theorem dtr_ns_pos (d : Dur) : durationToRepr .nanoseconds (.pos d) = .ofOption (tryI 64 d.total) := rfl
theorem dtr_ns_neg (d : Dur) : durationToRepr .nanoseconds (.neg d) = negNanos d := rfl
theorem dtr_us_pos (d : Dur) : durationToRepr .microseconds (.pos d) = .ofOption (tryI 64 (d.total / 1000)) := rfl
theorem dtr_us_neg (d : Dur) : durationToRepr .microseconds (.neg d) = .ofOption (negFine d 1000) := rfl
theorem dtr_ms_pos (d : Dur) : durationToRepr .milliseconds (.pos d) = .ofOption (tryI 64 (d.total / 1000000)) := rfl
theorem dtr_ms_neg (d : Dur) : durationToRepr .milliseconds (.neg d) = .ofOption (negFine d 1000000) := rfl
theorem dtr_s_pos (d : Dur) : durationToRepr .seconds (.pos d) = .ofOption (tryI 64 d.secs) := rfl
theorem dtr_s_neg (d : Dur) : durationToRepr .seconds (.neg d) = .ofOption (negFine d NS) := rfl
theorem dtr_pos (r : Resolution) (h : ¬ Fine r) (d : Dur) :
    durationToRepr r (.pos d) = .ofOption (tryI 32 (d.secs / factor r)) := by
  cases r <;> first | rfl | exact absurd (by decide) h
theorem dtr_d_neg (d : Dur) : durationToRepr .days (.neg d) = negDays d := rfl
theorem dtr_neg (r : Resolution) (h : ¬ Fine r) (h2 : r ≠ .days) (d : Dur) :
    durationToRepr r (.neg d) = negCoarse d (factor r) := by
  cases r <;> first | exact absurd rfl h2 | exact absurd (by decide) h | rfl

theorem negFine_some {d : Dur} {u : Nat} {x : Int} (hd : d.WF) (hu : 0 < u) (hu2 : u ≤ NS)
    (h : negFine d u = some x) : ∃ n : Nat, x = -(n : Int) ∧ n = (d.total + (u - 1)) / u ∧ n < 2 ^ 63 := by
  unfold negFine at h
  have w : (Dur.ofTotal (u - 1)).WF := by
    simp only [NS] at *
    exact ⟨by simp only [Dur.ofTotal, NS]; omega, Nat.mod_lt _ (by decide)⟩
  rcases Dur.checkedAdd_spec hd w with ⟨c, hc, _, ht⟩ | ⟨hc, _⟩
  · rw [hc] at h
    simp only at h
    rw [ht, Dur.total_ofTotal] at h
    cases hx : tryI 64 ((d.total + (u - 1)) / u) with
    | none => rw [hx] at h; simp at h
    | some y =>
      rw [hx] at h
      obtain ⟨e, hl⟩ := tryI_some hx
      simp at h
      exact ⟨_, by omega, rfl, by omega⟩
  · rw [hc] at h; simp at h

theorem ofOption_tryI {bits n : Nat} {x : Int} (h : Res.ofOption (tryI bits n) = .ok x) :
    x = (n : Int) := by
  unfold Res.ofOption at h
  split at h
  · rename_i y hy
    simp only [Res.ok.injEq] at h
    rw [← h]; exact (tryI_some hy).1
  · simp at h

theorem ofOption_negFine {d : Dur} {u : Nat} {x : Int} (hd : d.WF) (hu : 0 < u) (hu2 : u ≤ NS)
    (h : Res.ofOption (negFine d u) = .ok x) : x = -(((d.total + (u - 1)) / u : Nat) : Int) := by
  unfold Res.ofOption at h
  split at h
  · rename_i y hy
    simp only [Res.ok.injEq] at h
    obtain ⟨n, e1, e2, _⟩ := negFine_some hd hu hu2 hy
    rw [← h, e1, e2]
  · simp at h

theorem negCoarse_ok {d : Dur} {f : Nat} {x : Int} (h : negCoarse d f = .ok x) :
    x = -(((d.secs + f - 1) / f : Nat) : Int) := by
  unfold negCoarse at h
  split at h
  · unfold Res.ofOption at h
    split at h
    · rename_i y hy
      simp only [Res.ok.injEq] at h
      rw [Option.map_eq_some_iff] at hy
      obtain ⟨z, hz, hz2⟩ := hy
      rw [← h, ← hz2, (tryI_some hz).1]
    · simp at h
  · simp at h

theorem negNanos_ok {d : Dur} {x : Int} (h : negNanos d = .ok x) : x = -(d.total : Int) := by
  unfold negNanos at h
  split at h
  · simp only [Res.ok.injEq] at h; exact h.symm
  · split at h
    · rename_i hy
      simp only [Res.ok.injEq] at h
      rw [← h, hy]; rfl
    · simp at h

theorem negDays_ok {d : Dur} {x : Int} (h : negDays d = .ok x) :
    x = -(((d.secs + factor .days - 1) / factor .days : Nat) : Int) ∨
    (x = -2 ^ 31 ∧ 2 ^ 31 ≤ (d.secs + factor .days - 1) / factor .days) := by
  unfold negDays at h
  split at h
  · split at h
    · simp only [Res.ok.injEq] at h; exact .inl h.symm
    · rename_i hy
      simp only [Res.ok.injEq] at h
      exact .inr ⟨h.symm, Nat.not_lt.mp hy⟩
  · simp at h

/-- What a successful conversion of a positive duration returns. -/
theorem pos_ok {r : Resolution} {e : Dur} {x : Int} (hd : e.WF)
    (h : durationToRepr r (.pos e) = .ok x) :
    (Fine r → x = ((e.total / (unitNanos r).toNat : Nat) : Int)) ∧
    (¬ Fine r → x = ((e.secs / factor r : Nat) : Int)) := by
  constructor
  · rintro (rfl | rfl | rfl | rfl)
    · rw [dtr_ns_pos] at h; rw [ofOption_tryI h]; simp [unitNanos]
    · rw [dtr_us_pos] at h; rw [ofOption_tryI h]; rfl
    · rw [dtr_ms_pos] at h; rw [ofOption_tryI h]; rfl
    · rw [dtr_s_pos] at h; rw [ofOption_tryI h]
      have : e.total / 1000000000 = e.secs := by
        obtain ⟨_, h2⟩ := hd
        simp only [Dur.total, NS] at *; omega
      rw [show (unitNanos .seconds).toNat = 1000000000 from rfl, this]
  · intro hf
    rw [dtr_pos r hf] at h
    exact ofOption_tryI h

/-- What a successful conversion of a negative duration returns. -/
theorem neg_ok {r : Resolution} {e : Dur} {x : Int} (hd : e.WF)
    (h : durationToRepr r (.neg e) = .ok x) :
    (Fine r → x = -(((e.total + ((unitNanos r).toNat - 1)) / (unitNanos r).toNat : Nat) : Int)) ∧
    (¬ Fine r → x = -(((e.secs + factor r - 1) / factor r : Nat) : Int) ∨
      (r = .days ∧ x = -2 ^ 31 ∧ 2 ^ 31 ≤ (e.secs + factor r - 1) / factor r)) := by
  constructor
  · rintro (rfl | rfl | rfl | rfl)
    · rw [dtr_ns_neg] at h; rw [negNanos_ok h]; simp [unitNanos]
    · rw [dtr_us_neg] at h; exact ofOption_negFine hd (by decide) (by decide) h
    · rw [dtr_ms_neg] at h; exact ofOption_negFine hd (by decide) (by decide) h
    · rw [dtr_s_neg] at h; exact ofOption_negFine hd (by decide) (by decide) h
  · intro hf
    by_cases hr : r = .days
    · subst hr
      rw [dtr_d_neg] at h
      rcases negDays_ok h with h | h
      · exact .inl h
      · exact .inr ⟨rfl, h⟩
    · rw [dtr_neg r hf hr] at h
      exact .inl (negCoarse_ok h)

/-- The same with the numbers of each resolution filled in, in terms of total nanoseconds. -/
theorem pos_bounds {r : Resolution} {e : Dur} {x : Int} (hd : e.WF)
    (h : durationToRepr r (.pos e) = .ok x) :
    0 ≤ x ∧ x * unitNanos r ≤ (e.total : Int) ∧ (e.total : Int) < (x + 1) * unitNanos r := by
  obtain ⟨h1, h2⟩ := pos_ok hd h
  obtain ⟨_, hn⟩ := hd
  cases r
  case nanoseconds | microseconds | milliseconds | seconds =>
    rw [h1 (by decide)]
    simp only [unitNanos, Int.reduceToNat]
    generalize e.total = t
    omega
  all_goals
    rw [h2 (by decide)]
    simp only [unitNanos, factor, Dur.total, NS] at *
    omega

theorem neg_bounds {r : Resolution} {e : Dur} {x : Int} (hd : e.WF)
    (h : durationToRepr r (.neg e) = .ok x) (hsat : r = .days → x ≠ -2 ^ 31) :
    x ≤ 0 ∧ -(e.total : Int) - unitNanos r < x * unitNanos r ∧
      x * unitNanos r < -(e.total : Int) + unitNanos r ∧
      (Fine r ∨ e.nanos = 0 → x * unitNanos r ≤ -(e.total : Int) ∧
        -(e.total : Int) < (x + 1) * unitNanos r) := by
  obtain ⟨h1, h2⟩ := neg_ok hd h
  obtain ⟨_, hn⟩ := hd
  cases r
  case nanoseconds | microseconds | milliseconds | seconds =>
    rw [h1 (by decide)]
    simp only [unitNanos, Int.reduceToNat]
    generalize e.total = t
    refine ⟨by omega, by omega, by omega, fun _ => by omega⟩
  all_goals
    rcases h2 (by decide) with h2 | ⟨h3, h4, _⟩
    · have nf : ∀ p : Prop, (Fine .minutes ∨ p → p) ∧ (Fine .hours ∨ p → p) ∧ (Fine .days ∨ p → p) ∧
          (Fine .weeks ∨ p → p) := fun p => by simp [Fine]
      rw [h2]
      simp only [unitNanos, factor, Dur.total, NS] at *
      refine ⟨by omega, by omega, by omega, fun hz => ?_⟩
      have hz' : e.nanos = 0 := by
        obtain ⟨a, b, c, d⟩ := nf (e.nanos = 0)
        first | exact a hz | exact b hz | exact c hz | exact d hz
      omega
    · first | exact absurd h4 (hsat rfl) | cases h3

/-- C11: rounding is towards negative infinity at every resolution up to seconds, and at the coarser
ones for durations without a fractional second (`Days` also needs the result not to saturate). -/
theorem C11_floor_partial (r : Resolution) (d : SDur) (hd : d.WF)
    (hfrac : Fine r ∨ ¬ d.hasFraction ∨ 0 ≤ d.total) (x : Int) (h : durationToRepr r d = .ok x)
    (hsat : r = .days → x ≠ -2 ^ 31) :
    IsFloor r d.total x := by
  cases d with
  | pos e => obtain ⟨_, h2, h3⟩ := pos_bounds hd h; exact ⟨h2, h3⟩
  | neg e =>
    obtain ⟨_, _, _, h4⟩ := neg_bounds hd h hsat
    refine h4 ?_
    rcases hfrac with hf | hf | hf
    · exact .inl hf
    · exact .inr (Decidable.not_not.mp hf)
    · right
      simp only [SDur.total, Dur.total] at hf; omega

example : (SDur.neg ⟨59, 999999999⟩).WF ∧ (Fine .seconds ∨ ¬ (SDur.neg ⟨59, 999999999⟩).hasFraction ∨
    0 ≤ (SDur.neg ⟨59, 999999999⟩).total) ∧
    durationToRepr .seconds (.neg ⟨59, 999999999⟩) = .ok (-60) ∧
    (Resolution.seconds = .days → (-60 : Int) ≠ -2 ^ 31) := by
  refine ⟨by simp [SDur.WF, Dur.WF, NS], .inl (by decide), by decide, by simp⟩

/-- C11 violated: at minute resolution and coarser, a negative duration with a fractional second is
not rounded down: minus half a second becomes 0 minutes, not -1. -/
theorem C11_violated_floor :
    durationToRepr .minutes (.neg ⟨0, 500000000⟩) = .ok 0 ∧
    ¬ IsFloor .minutes (SDur.total (.neg ⟨0, 500000000⟩)) 0 := by
  refine ⟨by decide, ?_⟩
  simp [IsFloor, SDur.total, Dur.total, NS]

/-- C11 violated: `Days` silently saturates instead of failing when the duration is out of range. -/
theorem C11_violated_days_saturates :
    (SDur.neg ⟨2 ^ 62, 0⟩).WF ∧ durationToRepr .days (.neg ⟨2 ^ 62, 0⟩) = .ok (-2 ^ 31) ∧
    ¬ WithinOneUnit .days (SDur.total (.neg ⟨2 ^ 62, 0⟩)) (-2 ^ 31) := by
  refine ⟨by simp [SDur.WF, Dur.WF, NS], by decide, ?_⟩
  simp [WithinOneUnit, SDur.total, Dur.total, NS, unitNanos]

/-- C11 violated: near the largest duration the coarse resolutions overflow (a panic with overflow
checks) instead of returning an error. -/
theorem C11_violated_overflow (r : Resolution) (h : ¬ Fine r) :
    (SDur.neg ⟨2 ^ 64 - 1, 0⟩).WF ∧ durationToRepr r (.neg ⟨2 ^ 64 - 1, 0⟩) = .panic := by
  refine ⟨by simp [SDur.WF, Dur.WF, NS], ?_⟩
  cases r <;> first | exact absurd (by decide) h | decide

/-- C11: the result is always within one unit of the input (unless `Days` saturated). -/
theorem C11_within_one_unit (r : Resolution) (d : SDur) (hd : d.WF) (x : Int)
    (h : durationToRepr r d = .ok x) (hsat : r = .days → x ≠ -2 ^ 31) :
    WithinOneUnit r d.total x := by
  unfold WithinOneUnit
  have hu : 0 < unitNanos r := by cases r <;> decide
  cases d with
  | pos e =>
    obtain ⟨_, h2, h3⟩ := pos_bounds hd h
    rw [Int.add_mul] at h3
    simp only [SDur.total]; omega
  | neg e =>
    obtain ⟨_, h2, h3, _⟩ := neg_bounds hd h hsat
    simp only [SDur.total]; omega

/-- C11: conversion is monotone at every resolution, for all durations. -/
theorem C11_monotone (r : Resolution) (d e : SDur) (hd : d.WF) (he : e.WF)
    (hle : d.total ≤ e.total) (x y : Int) (hx : durationToRepr r d = .ok x)
    (hy : durationToRepr r e = .ok y) : x ≤ y := by
  cases d with
  | pos a =>
    cases e with
    | pos b =>
      obtain ⟨a1, a2⟩ := pos_ok hd hx
      obtain ⟨b1, b2⟩ := pos_ok he hy
      simp only [SDur.total, Int.ofNat_le] at hle
      by_cases hf : Fine r
      · rw [a1 hf, b1 hf, Int.ofNat_le]; exact Nat.div_le_div_right hle
      · rw [a2 hf, b2 hf, Int.ofNat_le]
        apply Nat.div_le_div_right
        obtain ⟨_, ha⟩ := hd; obtain ⟨_, hb⟩ := he
        simp only [Dur.total, NS] at *; omega
    | neg b =>
      -- both are zero
      simp only [SDur.total] at hle
      have ta : a.total = 0 := by omega
      have tb : b.total = 0 := by omega
      have za : a.secs = 0 := by simp only [Dur.total, NS] at ta; omega
      have zb : b.secs = 0 := by simp only [Dur.total, NS] at tb; omega
      obtain ⟨a1, a2⟩ := pos_ok hd hx
      obtain ⟨b1, b2⟩ := neg_ok he hy
      by_cases hf : Fine r
      · have hu : 0 < (unitNanos r).toNat := by cases r <;> decide
        rw [a1 hf, b1 hf, ta, tb, Nat.zero_div, Nat.zero_add, Nat.div_eq_of_lt (by omega)]; decide
      · have hu := (factor_bounds r).1
        have z : (b.secs + factor r - 1) / factor r = 0 := by
          rw [zb, Nat.zero_add, Nat.div_eq_of_lt (by omega)]
        rw [a2 hf, za, Nat.zero_div]
        rcases b2 hf with h | ⟨_, _, h⟩
        · rw [h, z]; decide
        · rw [z] at h; simp at h
  | neg a =>
    have hxle : x ≤ 0 := by
      obtain ⟨a1, a2⟩ := neg_ok hd hx
      by_cases hf : Fine r
      · rw [a1 hf]; exact Int.neg_nonpos_of_nonneg (Int.natCast_nonneg _)
      · rcases a2 hf with h | ⟨_, h, _⟩
        · rw [h]; exact Int.neg_nonpos_of_nonneg (Int.natCast_nonneg _)
        · rw [h]; decide
    cases e with
    | pos b => have := (pos_bounds he hy).1; omega
    | neg b =>
      obtain ⟨a1, a2⟩ := neg_ok hd hx
      obtain ⟨b1, b2⟩ := neg_ok he hy
      simp only [SDur.total] at hle
      have hle' : b.total ≤ a.total := by omega
      by_cases hf : Fine r
      · rw [a1 hf, b1 hf]
        apply Int.neg_le_neg
        rw [Int.ofNat_le]
        apply Nat.div_le_div_right; omega
      · have hs : b.secs ≤ a.secs := by
          obtain ⟨_, ha⟩ := hd; obtain ⟨_, hb⟩ := he
          simp only [Dur.total, NS] at *; omega
        have hq : (b.secs + factor r - 1) / factor r ≤ (a.secs + factor r - 1) / factor r := by
          apply Nat.div_le_div_right; omega
        rcases a2 hf with ha | ⟨hr, ha, ha'⟩ <;> rcases b2 hf with hb | ⟨_, hb, hb'⟩
        · rw [ha, hb]; omega
        · rw [ha, hb]; omega
        · -- `x` saturated; `y` is at least `i32::MIN`
          subst hr
          rw [dtr_d_neg] at hy
          unfold negDays at hy
          split at hy
          · split at hy
            · rename_i hlt
              simp only [Res.ok.injEq] at hy
              rw [ha, ← hy]; omega
            · simp only [Res.ok.injEq] at hy
              rw [ha, ← hy]; exact Int.le_refl _
          · simp at hy
        · rw [ha, hb]; exact Int.le_refl _

example : (SDur.neg ⟨90, 1⟩).WF ∧ (SDur.pos ⟨90, 1⟩).WF ∧
    durationToRepr .minutes (.neg ⟨90, 1⟩) = .ok (-2) ∧
    durationToRepr .minutes (.pos ⟨90, 1⟩) = .ok 1 := by
  refine ⟨by simp [SDur.WF, Dur.WF, NS], by simp [SDur.WF, Dur.WF, NS], by decide, by decide⟩

end Bonsai.Time
