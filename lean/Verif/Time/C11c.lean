import Verif.Time.C11b

set_option linter.unusedSimpArgs false

/-! # C11, third part: when conversion fails, and sums -/

namespace Bonsai.Time

theorem ofOption_err {bits n : Nat} (h : Res.ofOption (tryI bits n) = .err) :
    2 ^ (bits - 1) ≤ n := by
  by_cases hn : n < 2 ^ (bits - 1)
  · rw [tryI_of_lt hn] at h; simp [Res.ofOption] at h
  · exact Nat.not_lt.mp hn

theorem negFine_err {d : Dur} {u : Nat} (hd : d.WF) (hu : 0 < u) (hu2 : u ≤ NS)
    (h : Res.ofOption (negFine d u) = .err) : 2 ^ 63 ≤ (d.total + (u - 1)) / u := by
  unfold negFine at h
  have w : (Dur.ofTotal (u - 1)).WF := ofTotal_WF (by simp only [NS] at *; omega)
  rcases Dur.checkedAdd_spec hd w with ⟨c, hc, _, ht⟩ | ⟨hc, ht⟩
  · rw [hc] at h
    have h' : Res.ofOption ((tryI 64 (c.total / u)).map (fun x => -x)) = .err := h
    by_cases hn : c.total / u < 2 ^ 63
    · rw [tryI_of_lt (bits := 64) hn] at h'; simp [Res.ofOption] at h'
    · rw [ht, Dur.total_ofTotal] at hn; exact Nat.not_lt.mp hn
  · rw [Dur.total_ofTotal] at ht
    rw [Nat.le_div_iff_mul_le hu]
    have : 2 ^ 63 * u ≤ 2 ^ 63 * NS := Nat.mul_le_mul (Nat.le_refl _) hu2
    simp only [NS] at *; omega

theorem negCoarse_err {d : Dur} {f : Nat} (h : negCoarse d f = .err) :
    2 ^ 31 ≤ (d.secs + f - 1) / f := by
  unfold negCoarse at h
  split at h
  · by_cases hn : (d.secs + f - 1) / f < 2 ^ 31
    · rw [tryI_of_lt (bits := 32) hn] at h; simp [Res.ofOption] at h
    · exact Nat.not_lt.mp hn
  · simp at h

theorem negNanos_err {d : Dur} (h : negNanos d = .err) : 2 ^ 63 < d.total := by
  unfold negNanos at h
  split at h
  · simp at h
  · split at h
    · simp at h
    · rename_i a b; exact Nat.lt_of_le_of_ne (Nat.not_lt.mp a) (Ne.symm b)

theorem negDays_err {d : Dur} : negDays d ≠ .err := by
  unfold negDays
  split
  · split <;> simp
  · simp

/-- C11: an error is returned only when no representation other than the smallest one would do. -/
theorem C11_error_only_out_of_range (r : Resolution) (d : SDur) (hd : d.WF)
    (h : durationToRepr r d = .err) (x : Int) (hx : r.Valid x) (hx2 : x ≠ r.minRepr) :
    ¬ IsFloor r d.total x := by
  rintro ⟨f1, f2⟩
  obtain ⟨v1, v2⟩ := hx
  rw [minRepr_eq] at v1 hx2; rw [maxRepr_eq] at v2
  cases d with
  | pos e =>
    obtain ⟨_, hn⟩ := hd
    simp only [SDur.total] at f1 f2
    cases r
    case nanoseconds =>
      rw [dtr_ns_pos] at h
      have := ofOption_err h
      simp only [Fine, true_or, if_true, unitNanos] at *; omega
    case microseconds =>
      rw [dtr_us_pos] at h
      have := ofOption_err h
      simp only [Fine, true_or, or_true, if_true, unitNanos] at *; omega
    case milliseconds =>
      rw [dtr_ms_pos] at h
      have := ofOption_err h
      simp only [Fine, true_or, or_true, if_true, unitNanos] at *; omega
    case seconds =>
      rw [dtr_s_pos] at h
      have := ofOption_err h
      simp only [Fine, true_or, or_true, if_true, unitNanos, Dur.total, NS] at *; omega
    all_goals
      rw [dtr_pos _ (by decide)] at h
      have := ofOption_err h
      simp only [Fine, reduceCtorEq, or_self, if_false, unitNanos, Dur.total, NS, factor] at *
      omega
  | neg e =>
    simp only [SDur.total] at f1 f2
    cases r
    case nanoseconds =>
      rw [dtr_ns_neg] at h
      have := negNanos_err h
      simp only [Fine, true_or, if_true, unitNanos] at *; omega
    case microseconds =>
      rw [dtr_us_neg] at h
      have := negFine_err hd (by decide) (by decide) h
      simp only [Fine, true_or, or_true, if_true, unitNanos] at *; omega
    case milliseconds =>
      rw [dtr_ms_neg] at h
      have := negFine_err hd (by decide) (by decide) h
      simp only [Fine, true_or, or_true, if_true, unitNanos] at *; omega
    case seconds =>
      rw [dtr_s_neg] at h
      have := negFine_err hd (by decide) (by decide) h
      simp only [Fine, true_or, or_true, if_true, unitNanos, NS] at *; omega
    case days => rw [dtr_d_neg] at h; exact negDays_err h
    all_goals
      rw [dtr_neg _ (by decide) (by decide)] at h
      have := negCoarse_err h
      obtain ⟨_, hn⟩ := hd
      simp only [Fine, reduceCtorEq, or_self, if_false, unitNanos, Dur.total, NS, factor] at *
      omega

example : (SDur.pos ⟨2 ^ 63, 0⟩).WF ∧ durationToRepr .microseconds (.pos ⟨2 ^ 63, 0⟩) = .err := by
  refine ⟨by decide, ?_⟩
  rw [dtr_us_pos, tryI_of_ge (by decide)]; rfl

/-! ## Adding -/

/-- Adding signed durations is exact, never panics, and fails only on overflow. -/
theorem checkedAdd_exact (a b : SDur) (ha : a.WF) (hb : b.WF) :
    (∃ c, a.checkedAdd b = .ok (some c) ∧ c.WF ∧ c.total = a.total + b.total) ∨
    (a.checkedAdd b = .ok none ∧
      (2 ^ 64 * NS ≤ a.total + b.total ∨ a.total + b.total ≤ -(2 ^ 64 * NS))) := by
  cases a with
  | pos a =>
    cases b with
    | pos b =>
      rcases Dur.checkedAdd_spec (a := a) (b := b) ha hb with ⟨c, hc, hw, ht⟩ | ⟨hc, ht⟩
      · left; refine ⟨.pos c, by simp only [SDur.checkedAdd, hc, Option.map_some], hw, ?_⟩
        simp only [SDur.total]; omega
      · right; refine ⟨by simp only [SDur.checkedAdd, hc, Option.map_none], .inl ?_⟩
        simp only [SDur.total, NS] at *; omega
    | neg b =>
      rcases Dur.checkedSub_spec (a := a) (b := b) ha hb with ⟨c, hc, hw, ht⟩ | ⟨hc, ht⟩
      · left; refine ⟨.pos c, by simp only [SDur.checkedAdd, hc], hw, ?_⟩
        simp only [SDur.total]; omega
      · rcases Dur.checkedSub_spec (a := b) (b := a) hb ha with ⟨c, hc', hw, ht'⟩ | ⟨_, ht'⟩
        · left; refine ⟨.neg c, by simp only [SDur.checkedAdd, hc, hc'], hw, ?_⟩
          simp only [SDur.total]; omega
        · omega
  | neg a =>
    cases b with
    | neg b =>
      rcases Dur.checkedAdd_spec (a := a) (b := b) ha hb with ⟨c, hc, hw, ht⟩ | ⟨hc, ht⟩
      · left; refine ⟨.neg c, by simp only [SDur.checkedAdd, hc, Option.map_some], hw, ?_⟩
        simp only [SDur.total]; omega
      · right; refine ⟨by simp only [SDur.checkedAdd, hc, Option.map_none], .inr ?_⟩
        simp only [SDur.total, NS] at *; omega
    | pos b =>
      rcases Dur.checkedSub_spec (a := a) (b := b) ha hb with ⟨c, hc, hw, ht⟩ | ⟨hc, ht⟩
      · left; refine ⟨.neg c, by simp only [SDur.checkedAdd, hc], hw, ?_⟩
        simp only [SDur.total]; omega
      · rcases Dur.checkedSub_spec (a := b) (b := a) hb ha with ⟨c, hc', hw, ht'⟩ | ⟨_, ht'⟩
        · left; refine ⟨.pos c, by simp only [SDur.checkedAdd, hc, hc'], hw, ?_⟩
          simp only [SDur.total]; omega
        · omega

/-- The loop of `sumRepr`. -/
theorem sum_fold (r : Resolution) (vs : List Int) (hv : ∀ v ∈ vs, r.Valid v ∧ (MinIsWrong r → v ≠ r.minRepr))
    (acc : Res (Option SDur)) (t : Int)
    (hacc : acc = .ok none ∨ ∃ c, acc = .ok (some c) ∧ c.WF ∧ c.total = t * unitNanos r) :
    vs.foldl (sumStep r) acc = .ok none ∨
    ∃ c, vs.foldl (sumStep r) acc = .ok (some c) ∧ c.WF ∧
      c.total = (t + vs.sum) * unitNanos r := by
  induction vs generalizing acc t with
  | nil => simpa using hacc
  | cons v vs ih =>
    simp only [List.foldl_cons, List.sum_cons]
    rw [show t + (v + vs.sum) = (t + v) + vs.sum by omega]
    apply ih (fun w hw => hv w (by simp [hw]))
    rcases hacc with rfl | ⟨c, rfl, hw, ht⟩
    · left; rfl
    · obtain ⟨h1, h2⟩ := hv v (by simp)
      obtain ⟨w1, w2⟩ := C11_to_duration_exact_partial r v h1 h2
      rcases checkedAdd_exact c _ hw w1 with ⟨c', hc, hw', ht'⟩ | ⟨hc, _⟩
      · right
        refine ⟨c', hc, hw', ?_⟩
        rw [ht', ht, w2, Int.add_mul]
      · left; exact hc

theorem floor_of_exact {r : Resolution} {t x : Int} (h : IsFloor r (t * unitNanos r) x) : x = t := by
  obtain ⟨h1, h2⟩ := h
  cases r <;> simp only [unitNanos] at * <;> omega

/-- C11: summing limited-resolution durations, when it returns a value, returns exactly the sum of
the counts of units (for representations that denote what they say, and unless `Days` saturates). -/
theorem C11_sum_exact_partial (r : Resolution) (vs : List Int)
    (hv : ∀ v ∈ vs, r.Valid v ∧ (MinIsWrong r → v ≠ r.minRepr)) (x : Int)
    (h : sumRepr r vs = .ok (some x)) (hsat : r = .days → x ≠ -2 ^ 31) : x = vs.sum := by
  cases vs with
  | nil => simp [sumRepr] at h
  | cons v vs =>
    obtain ⟨h1, h2⟩ := hv v (by simp)
    obtain ⟨w1, w2⟩ := C11_to_duration_exact_partial r v h1 h2
    simp only [sumRepr] at h
    rcases sum_fold r vs (fun w hw => hv w (by simp [hw])) (.ok (some (reprToDuration r v))) v
      (.inr ⟨_, rfl, w1, w2⟩) with hc | ⟨c, hc, hw, ht⟩
    · rw [hc] at h; simp [sumFinish] at h
    · rw [hc] at h
      simp only [Res.bind_ok, sumFinish] at h
      split at h
      · rename_i y hy
        simp only [Res.ok.injEq, Option.some.injEq] at h
        subst h
        have hfl : IsFloor r c.total y := by
          refine C11_floor_partial r c hw ?_ y hy hsat
          by_cases hf : Fine r
          · exact .inl hf
          · right; left
            have hz : ∀ e : Dur, e.nanos < NS → ((e.total : Int) = (v + vs.sum) * unitNanos r ∨
                -(e.total : Int) = (v + vs.sum) * unitNanos r) → e.nanos = 0 := by
              intro e he ht
              cases r <;> first | exact absurd (by decide) hf | skip
              all_goals
                simp only [Dur.total, NS, unitNanos] at *
                omega
            cases c with
            | pos e => simp only [SDur.hasFraction, ne_eq, Decidable.not_not]; exact hz e hw.2 (.inl ht)
            | neg e => simp only [SDur.hasFraction, ne_eq, Decidable.not_not]; exact hz e hw.2 (.inr ht)
        rw [ht] at hfl
        rw [floor_of_exact hfl, List.sum_cons]
      · simp at h
      · simp at h

/-- Every running total of the counts fits in a `Duration`. -/
def RunningTotalsFit (r : Resolution) : Int → List Int → Prop
  | _, [] => True
  | t, v :: vs => -(2 ^ 64 * NS : Int) < (t + v) * unitNanos r ∧ (t + v) * unitNanos r < 2 ^ 64 * NS ∧
      RunningTotalsFit r (t + v) vs

theorem sum_fold_fits (r : Resolution) (vs : List Int) (hv : ∀ v ∈ vs, r.Valid v ∧ (MinIsWrong r → v ≠ r.minRepr))
    (a : SDur) (t : Int) (ha : a.WF) (hat : a.total = t * unitNanos r) (hf : RunningTotalsFit r t vs) :
    ∃ c, vs.foldl (sumStep r) (.ok (some a)) = .ok (some c) ∧ c.WF ∧
      c.total = (t + vs.sum) * unitNanos r := by
  induction vs generalizing a t with
  | nil => exact ⟨a, rfl, ha, by simpa using hat⟩
  | cons v vs ih =>
    obtain ⟨f1, f2, f3⟩ := hf
    obtain ⟨h1, h2⟩ := hv v (by simp)
    obtain ⟨w1, w2⟩ := C11_to_duration_exact_partial r v h1 h2
    simp only [List.foldl_cons, List.sum_cons]
    rw [show t + (v + vs.sum) = (t + v) + vs.sum by omega]
    have hsum : a.total + (reprToDuration r v).total = (t + v) * unitNanos r := by
      rw [hat, w2, Int.add_mul]
    rcases checkedAdd_exact a _ ha w1 with ⟨c', hc, hw', ht'⟩ | ⟨hc, hov⟩
    · have hs : sumStep r (.ok (some a)) v = .ok (some c') := hc
      rw [hs]
      exact ih (fun w hw => hv w (by simp [hw])) c' (t + v) hw' (by rw [ht', hsum]) f3
    · exfalso
      rw [hsum] at hov
      omega

theorem sdur_eq_of_total {a b : SDur} (ha : a.WF) (hb : b.WF) (h : a.total = b.total) (h0 : b.total ≠ 0) : a = b := by
  have hd : ∀ x y : Dur, x.WF → y.WF → x.total = y.total → x = y := by
    intro x y hx hy hxy
    obtain ⟨_, h1⟩ := hx; obtain ⟨_, h2⟩ := hy
    cases x; cases y
    simp only [Dur.total, NS, Dur.mk.injEq] at *
    omega
  cases a with
  | pos a =>
    cases b with
    | pos b => simp only [SDur.total] at h; rw [hd a b ha hb (by omega)]
    | neg b => simp only [SDur.total] at h h0; omega
  | neg a =>
    cases b with
    | pos b => simp only [SDur.total] at h h0; omega
    | neg b => simp only [SDur.total] at h; rw [hd a b ha hb (by omega)]

theorem durationToRepr_of_total (r : Resolution) (c : SDur) (v : Int) (hc : c.WF) (hv : r.Valid v)
    (hm : v ≠ r.minRepr) (ht : c.total = v * unitNanos r) : durationToRepr r c = .ok v := by
  by_cases h0 : v = 0
  · subst h0
    have hz : c = .pos ⟨0, 0⟩ ∨ c = .neg ⟨0, 0⟩ := by
      simp only [Int.zero_mul] at ht
      cases c with
      | pos d =>
        left
        simp only [SDur.total, Dur.total, NS] at ht
        cases d; simp only [SDur.pos.injEq, Dur.mk.injEq] at *; omega
      | neg d =>
        right
        simp only [SDur.total, Dur.total, NS] at ht
        cases d; simp only [SDur.neg.injEq, Dur.mk.injEq] at *; omega
    rcases hz with rfl | rfl <;> cases r <;> decide
  · obtain ⟨w1, w2⟩ := C11_to_duration_exact_partial r v hv (fun _ => hm)
    have : c = reprToDuration r v := by
      refine sdur_eq_of_total hc w1 (by rw [ht, w2]) ?_
      rw [w2]
      have : unitNanos r ≠ 0 := by cases r <;> decide
      exact Int.mul_ne_zero h0 this
    rw [this]
    exact C11_round_trip_partial r v hv (fun h => absurd h hm)

/-- C11: the sum of a non-empty list is returned whenever it is representable and no running total
leaves the range of `Duration`. -/
theorem C11_sum_succeeds (r : Resolution) (v : Int) (vs : List Int)
    (hv : ∀ w ∈ v :: vs, r.Valid w ∧ (MinIsWrong r → w ≠ r.minRepr)) (hf : RunningTotalsFit r v vs)
    (hs : r.Valid (v :: vs).sum) (hm : (v :: vs).sum ≠ r.minRepr) :
    sumRepr r (v :: vs) = .ok (some (v :: vs).sum) := by
  obtain ⟨h1, h2⟩ := hv v (by simp)
  obtain ⟨w1, w2⟩ := C11_to_duration_exact_partial r v h1 h2
  obtain ⟨c, hc, hw, ht⟩ := sum_fold_fits r vs (fun w hw => hv w (by simp [hw])) _ v w1 w2 hf
  rw [← List.sum_cons] at ht
  simp only [sumRepr, hc, Res.bind_ok, sumFinish, durationToRepr_of_total r c _ hw hs hm ht]

example : RunningTotalsFit .minutes 5 [-7, 1] := by simp [RunningTotalsFit, unitNanos, NS]
example : sumRepr .minutes [5, -7, 1] = .ok (some (-1)) := by decide

end Bonsai.Time
