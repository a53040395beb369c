import Verif.Time.Spec
import Verif.Time.Lemmas

set_option linter.unusedSimpArgs false

/-! # C11: limited-resolution durations -/

namespace Bonsai.Time

theorem minRepr_eq (r : Resolution) :
    r.minRepr = if Fine r then -9223372036854775808 else -2147483648 := by
  cases r <;> simp [Resolution.minRepr, Resolution.bits, Fine]

theorem maxRepr_eq (r : Resolution) :
    r.maxRepr = if Fine r then 9223372036854775807 else 2147483647 := by
  cases r <;> simp [Resolution.maxRepr, Resolution.bits, Fine]

theorem magnitude_eq (r : Resolution) (v : Int) (h : MinIsWrong r → v ≠ r.minRepr) :
    magnitude r v = v.natAbs := by
  cases r <;> simp only [magnitude, MinIsWrong, Resolution.minRepr, Resolution.bits, reduceCtorEq,
    or_self, or_true, true_or, true_implies] at *
  all_goals exact if_neg h

/-- C11: a representation denotes exactly that many units - except the smallest `i64` at
microsecond, millisecond and second resolution. -/
theorem C11_to_duration_exact_partial (r : Resolution) (v : Int) (hv : r.Valid v)
    (hmin : MinIsWrong r → v ≠ r.minRepr) :
    (reprToDuration r v).WF ∧ (reprToDuration r v).total = v * unitNanos r := by
  obtain ⟨h1, h2⟩ := hv
  rw [minRepr_eq] at h1; rw [maxRepr_eq] at h2
  unfold reprToDuration
  rw [magnitude_eq r v hmin]
  clear hmin
  split
  · cases r <;>
      simp only [Fine, reduceCtorEq, or_self, or_true, true_or, if_true, if_false, unitsToDur, factor,
        SDur.WF, SDur.total, Dur.WF, Dur.total, Dur.ofTotal, unitNanos, NS] at * <;>
      omega
  · cases r <;>
      simp only [Fine, MinIsWrong, reduceCtorEq, or_self, or_true, true_or, if_true, if_false,
        unitsToDur, factor, magnitude, forall_const, ne_eq, true_implies,
        SDur.WF, SDur.total, Dur.WF, Dur.total, Dur.ofTotal, unitNanos, NS] at *
    all_goals omega

example : Resolution.Valid .milliseconds (-1500) ∧
    (MinIsWrong .milliseconds → (-1500 : Int) ≠ Resolution.minRepr .milliseconds) := by decide

/-- C11 violated: `i64::MIN` units at these resolutions become about twice the duration. -/
theorem C11_violated_min (r : Resolution) (h : MinIsWrong r) :
    r.Valid r.minRepr ∧ (reprToDuration r r.minRepr).total ≠ r.minRepr * unitNanos r ∧
    durationToRepr r (reprToDuration r r.minRepr) ≠ .ok r.minRepr := by
  rcases h with rfl | rfl | rfl <;> decide

theorem tryI_of_lt {bits n : Nat} (h : n < 2 ^ (bits - 1)) : tryI bits n = some (n : Int) := if_pos h

theorem tryI_of_ge {bits n : Nat} (h : ¬ n < 2 ^ (bits - 1)) : tryI bits n = none := if_neg h

theorem tryI_some {bits n : Nat} {x : Int} (h : tryI bits n = some x) :
    x = n ∧ n < 2 ^ (bits - 1) := by
  unfold tryI at h; split at h <;> simp at h
  exact ⟨h.symm, by assumption⟩

theorem posFine_rt {n : Nat} (h : n < 2 ^ 63) {u : Nat} (hu : 0 < u) :
    Res.ofOption (tryI 64 ((Dur.ofTotal (n * u)).total / u)) = .ok (n : Int) := by
  rw [Dur.total_ofTotal, Nat.mul_div_cancel _ hu, tryI_of_lt (bits := 64) h]; rfl

theorem ofTotal_WF {m : Nat} (h : m < 2 ^ 64 * NS) : (Dur.ofTotal m).WF := by
  refine ⟨?_, Nat.mod_lt _ (by decide)⟩
  simp only [Dur.ofTotal, NS] at *; omega

theorem div_aux {n u : Nat} (hu : 0 < u) : (n * u + (u - 1)) / u = n := by
  rw [Nat.add_comm, Nat.add_mul_div_right _ _ hu, Nat.div_eq_of_lt (Nat.sub_lt hu Nat.one_pos), Nat.zero_add]

theorem ovf_aux {n u : Nat}  (hu2 : u ≤ 1000000000) (hu : 0 < u) (h : n < 2 ^ 63)  (hc : 2 ^ 64 * 1000000000 ≤ n * u + (u - 1)) : False := by
  have hb : n * u ≤ (2 ^ 63 - 1) * 1000000000 := Nat.mul_le_mul (Nat.le_sub_one_of_lt h) hu2
  omega
theorem negFine_rt {n u : Nat} {d : Dur} (hd : d.WF) (ht : d.total = n * u) (h : n < 2 ^ 63)
    (hu : 0 < u) (hu2 : u ≤ NS) : Res.ofOption (negFine d u) = .ok (-(n : Int)) := by
  have w : (Dur.ofTotal (u - 1)).WF := ofTotal_WF (by simp only [NS] at *; omega)
  unfold negFine
  rcases Dur.checkedAdd_spec hd w with ⟨c, hc, _, hs⟩ | ⟨_, hc⟩
  · rw [hc]
    have e : c.total / u = n := by
      rw [hs, ht, Dur.total_ofTotal, div_aux hu]
    show Res.ofOption ((tryI 64 (c.total / u)).map _) = _
    rw [e, tryI_of_lt (bits := 64) h]; rfl
  · rw [ht, Dur.total_ofTotal] at hc
    exact (ovf_aux hu2 hu h hc).elim

theorem posCoarse_rt {n f : Nat} (h : n < 2 ^ 31) (hf : 0 < f) :
    Res.ofOption (tryI 32 (n * f / f)) = .ok (n : Int) := by
  rw [Nat.mul_div_cancel _ hf, tryI_of_lt (bits := 32) h]; rfl

theorem coarse_div (n : Nat) {f : Nat} (hf : 0 < f) : (n * f + f - 1) / f = n := by
  rw [show n * f + f - 1 = (f - 1) + n * f by omega, Nat.add_mul_div_right _ _ hf,
    Nat.div_eq_of_lt (by omega), Nat.zero_add]

theorem negCoarse_rt {n f : Nat} (h : n < 2 ^ 31) (hf : 0 < f) (hf2 : f ≤ 604800) :
    negCoarse ⟨n * f, 0⟩ f = .ok (-(n : Int)) := by
  unfold negCoarse
  have hb : n * f ≤ 2 ^ 31 * 604800 := Nat.mul_le_mul (Nat.le_of_lt h) hf2
  rw [if_pos (show n * f + f - 1 < 2 ^ 64 by omega)]
  show Res.ofOption ((tryI 32 ((n * f + f - 1) / f)).map _) = _
  rw [coarse_div n hf, tryI_of_lt (bits := 32) h]; rfl

theorem factor_bounds (r : Resolution) : 0 < factor r ∧ factor r ≤ 604800 := by
  cases r <;> decide

theorem negNanos_rt {n : Nat} (h : n ≤ 2 ^ 63) : negNanos (Dur.ofTotal n) = .ok (-(n : Int)) := by
  unfold negNanos
  rw [Dur.total_ofTotal]
  by_cases hn : n < 2 ^ 63
  · rw [if_pos hn]
  · have hn' : n = 2 ^ 63 := by omega
    rw [if_neg hn, if_pos hn', hn']; rfl

theorem negDays_rt {n : Nat} (h : n ≤ 2 ^ 31) : negDays ⟨n * factor .days, 0⟩ = .ok (-(n : Int)) := by
  have hb := factor_bounds .days
  have hlt : n * factor .days + factor .days - 1 < 2 ^ 64 := by
    have : n * factor .days ≤ 2 ^ 31 * 604800 := Nat.mul_le_mul h hb.2
    omega
  unfold negDays
  simp only [coarse_div n hb.1]
  rw [if_pos hlt]
  by_cases hn : n < 2 ^ 31
  · rw [if_pos hn]
  · have hn' : n = 2 ^ 31 := by omega
    rw [if_neg hn, hn']; rfl

section
attribute [local irreducible] factor

/-- C11: converting a representation to a duration and back is the identity, for every
representation except the smallest one (which survives only for nanoseconds and days). -/
theorem C11_round_trip_partial (r : Resolution) (v : Int) (hv : r.Valid v)
    (hmin : v = r.minRepr → r = .nanoseconds ∨ r = .days) :
    durationToRepr r (reprToDuration r v) = .ok v := by
  obtain ⟨h1, h2⟩ := hv
  have hm : MinIsWrong r → v ≠ r.minRepr := by
    intro hr hv
    rcases hmin hv with rfl | rfl <;> simp [MinIsWrong] at hr
  rw [minRepr_eq] at h1 hmin; rw [maxRepr_eq] at h2
  unfold reprToDuration
  rw [magnitude_eq r v hm]
  clear hm
  split
  · rename_i hpos
    obtain ⟨n, rfl⟩ := Int.eq_ofNat_of_zero_le hpos
    rw [Int.toNat_natCast]
    cases r <;> simp only [Fine, reduceCtorEq, or_self, or_true, true_or, if_true, if_false] at h2
    case nanoseconds =>
      have := posFine_rt (n := n) (by omega) (u := 1) (by decide)
      rw [Nat.div_one, Nat.mul_one] at this
      exact this
    case microseconds => exact posFine_rt (by omega) (by decide)
    case milliseconds => exact posFine_rt (by omega) (by decide)
    case seconds =>
      show Res.ofOption (tryI 64 n) = _
      rw [tryI_of_lt (bits := 64) (show n < 2 ^ 63 by omega)]; rfl
    all_goals exact posCoarse_rt (by omega) (factor_bounds _).1
  · rename_i hneg
    obtain ⟨n, rfl⟩ : ∃ n : Nat, v = -(n : Int) := ⟨v.natAbs, by omega⟩
    rw [Int.natAbs_neg, Int.natAbs_natCast]
    cases r <;> simp only [Fine, reduceCtorEq, or_self, or_true, true_or, if_true, if_false,
      imp_false, implies_true] at h1 hmin
    case nanoseconds => exact negNanos_rt (by omega)
    case microseconds =>
      exact negFine_rt (ofTotal_WF (by simp only [NS]; omega)) (Dur.total_ofTotal _) (by omega)
        (by decide) (by decide)
    case milliseconds =>
      exact negFine_rt (ofTotal_WF (by simp only [NS]; omega)) (Dur.total_ofTotal _) (by omega)
        (by decide) (by decide)
    case seconds =>
      have w1 : (⟨n, 0⟩ : Dur).WF := ⟨show n < 2 ^ 64 by omega, show 0 < NS by decide⟩
      exact negFine_rt w1 (Nat.add_zero _) (by omega) (by decide) (by decide)
    case days => exact negDays_rt (by omega)
    case minutes => exact negCoarse_rt (f := factor .minutes) (by omega) (factor_bounds _).1 (factor_bounds _).2
    case hours => exact negCoarse_rt (f := factor .hours) (by omega) (factor_bounds _).1 (factor_bounds _).2
    case weeks => exact negCoarse_rt (f := factor .weeks) (by omega) (factor_bounds _).1 (factor_bounds _).2

end

example : Resolution.Valid .weeks (-300) ∧
    ((-300 : Int) = Resolution.minRepr .weeks → Resolution.weeks = .nanoseconds ∨ Resolution.weeks = .days) := by
  decide


end Bonsai.Time
