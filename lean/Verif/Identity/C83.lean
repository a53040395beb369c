import Verif.Identity.Argon

/-!
# C83: hashing passwords: the right answer to every call, the strength asked for, and a pool that keeps working
-/
set_option linter.unusedVariables false
set_option linter.unusedSimpArgs false

namespace Bonsai.Argon

/-! ## The calibration -/

theorem ceilDivide_some {a b q : Nat} (h : ceilDivide a b = some q) : b ≠ 0 ∧ q = (a + (b - 1)) / b := by
  unfold ceilDivide at h
  split at h
  · cases h
  · split at h
    · cases h; subst_vars; exact ⟨by decide, by simp⟩
    · cases h; exact ⟨by assumption, rfl⟩

theorem ceilDivide_pos {a b : Nat} (h : b ≠ 0) : ceilDivide a b = some ((a + (b - 1)) / b) := by
  unfold ceilDivide
  rw [if_neg h]
  split
  · subst_vars; simp
  · rfl

theorem Cal.cost_ge {m : Nat} {c : Cal} {t : Nat} (h : c.cost m = some t) : c.minCost ≤ t := by
  unfold Cal.cost at h
  split at h
  · split at h
    · cases h
    · split at h
      · cases h; exact Nat.le_max_right _ _
      · cases h
  · cases h; exact Nat.le_refl _

/-- The costs of the runs that count and what they took. -/
def counted (rs : List (Nat × Option Nat)) : List (Nat × Nat) :=
  rs.filterMap fun r => r.2.map fun e => (r.1, e)

theorem Cal.advance_min {b : Bool} {c c' : Cal} {t e : Nat} (h : c.advance b t e = some c') (ht : t + 1 < 2 ^ 32) :
    c'.minCost = t + 1 := by
  unfold Cal.advance at h
  split at h
  · cases h
  · cases h; exact Nat.mod_eq_of_lt ht

theorem Cal.advance_checked {c c' : Cal} {t e : Nat} (h : c.advance true t e = some c') : t + 1 < 2 ^ 32 := by
  unfold Cal.advance at h
  split at h
  · cases h
  · rename_i hn
    simp at hn
    omega

theorem calRun_ok {m : Nat} {b : Bool} {v : Nat → Bool} {c : Cal} {rs : List (Nat × Option Nat)} {o : CalOut}
    (h : CalRun m b v c rs o) {t : Nat} (ho : o = .ok t) (hw : b = true ∨ ∀ p ∈ counted rs, p.1 + 1 < 2 ^ 32) :
    c.minCost ≤ t ∧ v t = true ∧ ∃ rs' e, rs = rs' ++ [(t, some e)] ∧ m ≤ e ∧ ∀ p ∈ counted rs', p.2 < m ∧ p.1 < t := by
  induction h with
  | costPanic => cases ho
  | invalid => cases ho
  | clock h1 h2 h3 ih =>
    obtain ⟨i1, i2, rs', e, i3, i4, i5⟩ := ih ho (hw.imp id fun h p hp => h p (by simpa [counted] using hp))
    exact ⟨i1, i2, _ :: rs', e, by rw [i3]; rfl, i4, by simpa [counted] using i5⟩
  | enough h1 h2 h3 =>
    cases ho
    exact ⟨Cal.cost_ge h1, h2, [], _, rfl, h3, by simp [counted]⟩
  | overflow => cases ho
  | @more c c' t' e' rs o h1 h2 h3 h4 h5 ih =>
    have hw' : t' + 1 < 2 ^ 32 := by
      rcases hw with rfl | hw
      · exact Cal.advance_checked h4
      · exact hw (t', e') (by simp [counted])
    obtain ⟨i1, i2, rs', e, i3, i4, i5⟩ := ih ho (hw.imp id fun h p hp => h p (by
      simp only [counted, List.filterMap_cons, Option.map_some, List.mem_cons] at hp ⊢; exact .inr hp))
    rw [Cal.advance_min h4 hw'] at i1
    have := Cal.cost_ge h1
    refine ⟨by omega, i2, _ :: rs', e, by rw [i3]; rfl, i4, ?_⟩
    intro p hp
    simp only [counted, List.filterMap_cons, Option.map_some, List.mem_cons] at hp
    rcases hp with rfl | hp
    · exact ⟨h3, by dsimp; omega⟩
    · exact i5 p hp

/-- **C83 (calibration)**: when the calibration ends with a cost, the last run was with that cost and lasted at least the
minimum duration; the cost is at least 2, and greater than that of every run that was too short. In release builds
this needs the costs not to reach 2^32. -/
theorem C83_calibration {m : Nat} {b : Bool} {v : Nat → Bool} {rs : List (Nat × Option Nat)} {t : Nat}
    (h : CalRun m b v Cal.start rs (.ok t)) (hw : b = true ∨ ∀ p ∈ counted rs, p.1 + 1 < 2 ^ 32) :
    2 ≤ t ∧ v t = true ∧ ∃ rs' e, rs = rs' ++ [(t, some e)] ∧ m ≤ e ∧ ∀ p ∈ counted rs', p.2 < m ∧ p.1 < t :=
  calRun_ok h rfl hw

theorem calPath_len {m u : Nat} {b : Bool} {v : Nat → Bool} {c c' : Cal} {rs : List (Nat × Nat)}
    (h : CalPath m b v c rs c') (hm : m < u * (2 ^ 32 - 1)) (hu : ∀ p ∈ rs, u * p.1 ≤ p.2) :
    rs ≠ [] → u * (rs.length + c.minCost - 1) < m := by
  induction h with
  | nil => intro h; exact absurd rfl h
  | @cons c c' c'' t e rs h1 h2 h3 h4 h5 ih =>
    intro _
    have he := hu (t, e) (by simp)
    dsimp at he
    have ht : t + 1 < 2 ^ 32 := by
      have : u * t < u * (2 ^ 32 - 1) := by omega
      have := Nat.lt_of_mul_lt_mul_left this
      omega
    have hc := Cal.cost_ge h1
    by_cases hr : rs = []
    · subst hr
      simp only [List.length_cons, List.length_nil]
      have : u * (0 + 1 + c.minCost - 1) ≤ u * t := Nat.mul_le_mul_left _ (by omega)
      omega
    · have := ih (fun p hp => hu p (by simp [hp])) hr
      rw [Cal.advance_min h4 ht] at this
      simp only [List.length_cons]
      have h' : u * (rs.length + 1 + c.minCost - 1) ≤ u * (rs.length + (t + 1) - 1) := Nat.mul_le_mul_left _ (by omega)
      omega

/-- **C83 (calibration ends)**: if an iteration takes at least `u` nanoseconds, there are fewer than `minimum / u` runs
that are too short. -/
theorem C83_calibration_ends {m u : Nat} {b : Bool} {v : Nat → Bool} {c : Cal} {rs : List (Nat × Nat)}
    (h : CalPath m b v Cal.start rs c) (hm : m < u * (2 ^ 32 - 1)) (hu : ∀ p ∈ rs, u * p.1 ≤ p.2) (hr : rs ≠ []) :
    u * (rs.length + 1) < m := by
  have := calPath_len h hm hu hr
  exact this

theorem calRun_no_panic {m u : Nat} {b : Bool} {v : Nat → Bool} {c : Cal} {rs : List (Nat × Option Nat)} {o : CalOut}
    (h : CalRun m b v c rs o) (hu : 0 < u) (hm : m ≤ u * 65535) (ht : ∀ p ∈ counted rs, u * p.1 ≤ p.2)
    (h1 : c.minCost ≤ 65536) (h2 : 2 * c.spent ≤ c.minCost * c.minCost) (h3 : u * c.spent ≤ c.dur) : o ≠ .panic := by
  have cost : ∀ c : Cal, c.minCost ≤ 65536 → u * c.spent ≤ c.dur → c.cost m ≠ none := by
    intro c h1 h3 hn
    unfold Cal.cost at hn
    split at hn
    · rename_i hs
      have ha : u ≤ c.dur / c.spent := (Nat.le_div_iff_mul_le hs).mpr h3
      rw [ceilDivide_pos (by omega)] at hn
      dsimp at hn
      split at hn
      · cases hn
      · rename_i hb
        apply hb
        generalize c.dur / c.spent = d at *
        refine Nat.lt_of_le_of_lt (m := 65536) ?_ (by decide)
        refine Nat.le_of_lt_succ ((Nat.div_lt_iff_lt_mul (by omega)).mpr ?_)
        have : u * 65535 ≤ d * 65535 := Nat.mul_le_mul_right _ ha
        omega
    · cases hn
  induction h with
  | costPanic hc => exact absurd hc (cost _ h1 h3)
  | invalid => simp
  | clock c1 c2 c3 ih => exact ih (fun p hp => ht p (by simpa [counted] using hp)) h1 h2 h3
  | enough => simp
  | @overflow c t e c1 c2 c3 c4 =>
    have hte := ht (t, e) (by simp [counted])
    dsimp at hte
    have htt : t < 65535 := Nat.lt_of_mul_lt_mul_left (a := u) (by omega)
    have : c.minCost * c.minCost ≤ 65536 * 65536 := Nat.mul_le_mul h1 h1
    unfold Cal.advance at c4
    split at c4
    · rename_i hn
      exfalso
      apply hn.2
      omega
    · cases c4
  | @more c c' t e rs o c1 c2 c3 c4 c5 ih =>
    have hte := ht (t, e) (by simp [counted])
    dsimp at hte
    have htt : t < 65535 := Nat.lt_of_mul_lt_mul_left (a := u) (by omega)
    have hb : c.minCost * c.minCost ≤ 65536 * 65536 := Nat.mul_le_mul h1 h1
    have hg := Cal.cost_ge c1
    have hsq : c.minCost * c.minCost ≤ t * t := Nat.mul_le_mul hg hg
    have e1 : (c.spent + t) % 2 ^ 32 = c.spent + t := Nat.mod_eq_of_lt (by omega)
    have e2 : (t + 1) % 2 ^ 32 = t + 1 := Nat.mod_eq_of_lt (by omega)
    unfold Cal.advance at c4
    split at c4
    · cases c4
    · simp only [Option.some.injEq] at c4
      subst c4
      refine ih (fun p hp => ht p (by
        simp only [counted, List.filterMap_cons, Option.map_some, List.mem_cons] at hp ⊢; exact .inr hp)) ?_ ?_ ?_
      · dsimp; omega
      · dsimp; rw [e1, e2]
        have : (t + 1) * (t + 1) = t * t + 2 * t + 1 := by
          rw [Nat.add_mul, Nat.mul_add]; omega
        omega
      · dsimp; rw [e1, Nat.mul_add]; omega

/-- **C83 (no panic)**: the calibration does not panic if the minimum duration is at most 65535 times what an iteration
takes (with the default of a second, if an iteration takes at least 15.3 microseconds). -/
theorem C83_calibration_no_panic_partial {m u : Nat} {b : Bool} {v : Nat → Bool} {rs : List (Nat × Option Nat)}
    {o : CalOut} (h : CalRun m b v Cal.start rs o) (hu : 0 < u) (hm : m ≤ u * 65535)
    (ht : ∀ p ∈ counted rs, u * p.1 ≤ p.2) : o ≠ .panic :=
  calRun_no_panic h hu hm ht (by decide) (by decide) (by simp [Cal.start])

theorem calRun_second {m u : Nat} {b : Bool} {v : Nat → Bool} {c : Cal} {rs : List (Nat × Option Nat)} {o : CalOut}
    (h : CalRun m b v c rs o) (hc : c = ⟨3, 2, u * 2⟩) (hu : 0 < u) (hm : 2 * u < m) (hb : m < u * (2 ^ 32 - 1))
    (ht : ∀ p ∈ counted rs, p.2 = u * p.1) {t : Nat} (ho : o = .ok t) :
    t = (m + (u - 1)) / u ∧ (counted rs).length = 1 := by
  have cost : Cal.cost m ⟨3, 2, u * 2⟩ = some ((m + (u - 1)) / u) := by
    unfold Cal.cost
    simp only [show (2 : Nat) > 0 from by decide, if_true, Nat.mul_div_cancel u (show 0 < 2 by decide)]
    rw [ceilDivide_pos (by omega)]
    dsimp
    have h1 : (m + (u - 1)) / u < 2 ^ 32 := by
      refine (Nat.div_lt_iff_lt_mul hu).mpr ?_
      have : 2 ^ 32 * u = u * (2 ^ 32 - 1) + u := by
        rw [Nat.mul_comm]; conv => lhs; rw [show (2:Nat) ^ 32 = (2 ^ 32 - 1) + 1 by decide, Nat.mul_add, Nat.mul_one]
      omega
    have h2 : 3 ≤ (m + (u - 1)) / u := (Nat.le_div_iff_mul_le hu).mpr (by omega)
    rw [if_pos h1, Nat.max_eq_left h2]
  have enough : m ≤ u * ((m + (u - 1)) / u) := by
    have := Nat.div_add_mod (m + (u - 1)) u
    have := Nat.mod_lt (m + (u - 1)) hu
    omega
  induction h with
  | costPanic => cases ho
  | invalid => cases ho
  | clock c1 c2 c3 ih => simpa [counted] using ih hc (fun p hp => ht p (by simpa [counted] using hp)) ho
  | enough c1 c2 c3 =>
    cases ho; subst hc; rw [cost] at c1; cases c1
    exact ⟨rfl, by simp [counted]⟩
  | overflow => cases ho
  | @more c c' t' e rs o c1 c2 c3 c4 c5 ih =>
    subst hc; rw [cost] at c1; cases c1
    have := ht (_, e) (List.mem_cons_self)
    dsimp at this
    omega

theorem calRun_first {m u : Nat} {b : Bool} {v : Nat → Bool} {c : Cal} {rs : List (Nat × Option Nat)} {o : CalOut}
    (h : CalRun m b v c rs o) (hc : c = Cal.start) (hu : 0 < u) (hb : m < u * (2 ^ 32 - 1))
    (ht : ∀ p ∈ counted rs, p.2 = u * p.1) {t : Nat} (ho : o = .ok t) :
    2 ≤ t ∧ m ≤ u * t ∧ (∀ t', 2 ≤ t' → m ≤ u * t' → t ≤ t') ∧ (counted rs).length ≤ 2 := by
  induction h with
  | costPanic => cases ho
  | invalid => cases ho
  | clock c1 c2 c3 ih => simpa [counted] using ih hc (fun p hp => ht p (by simpa [counted] using hp)) ho
  | @enough c t' e c1 c2 c3 =>
    cases ho; subst hc; cases c1
    have := ht (2, e) (by simp [counted, Cal.start])
    dsimp at this
    exact ⟨by decide, by simp only [Cal.start]; omega, fun t' h _ => h, by simp [counted]⟩
  | overflow => cases ho
  | @more c c' t' e rs o c1 c2 c3 c4 c5 ih =>
    subst hc; cases c1
    have he := ht (2, e) (by simp [counted, Cal.start])
    dsimp at he
    have hc' : c' = ⟨3, 2, u * 2⟩ := by
      unfold Cal.advance at c4
      split at c4
      · cases c4
      · cases c4; simp [Cal.start, he]
    obtain ⟨h1, h2⟩ := calRun_second c5 hc' hu (by omega) hb (fun p hp => ht p (by
        simp only [counted, List.filterMap_cons, Option.map_some, List.mem_cons] at hp ⊢; exact .inr hp)) ho
    refine ⟨?_, ?_, ?_, ?_⟩
    · rw [h1]; exact (Nat.le_div_iff_mul_le hu).mpr (by omega)
    · rw [h1]
      have := Nat.div_add_mod (m + (u - 1)) u
      have := Nat.mod_lt (m + (u - 1)) hu
      omega
    · intro t'' _ h''
      rw [h1]
      refine Nat.le_of_lt_succ ((Nat.div_lt_iff_lt_mul hu).mpr ?_)
      rw [Nat.succ_mul, Nat.mul_comm]; omega
    · simp only [counted, List.filterMap_cons, Option.map_some, List.length_cons] at h2 ⊢; omega

/-- **C83 (the cost is the least)**: on a machine on which an iteration always takes `u` nanoseconds the calibration
finds, in at most two runs, the least cost of at least 2 that lasts the minimum duration. -/
theorem C83_calibration_least {m u : Nat} {b : Bool} {v : Nat → Bool} {rs : List (Nat × Option Nat)} {t : Nat}
    (h : CalRun m b v Cal.start rs (.ok t)) (hu : 0 < u) (hb : m < u * (2 ^ 32 - 1))
    (ht : ∀ p ∈ counted rs, p.2 = u * p.1) :
    2 ≤ t ∧ m ≤ u * t ∧ (∀ t', 2 ≤ t' → m ≤ u * t' → t ≤ t') ∧ (counted rs).length ≤ 2 :=
  calRun_first h rfl hu hb ht rfl

/-- A calibration for a second where an iteration takes 30 ms: 2 iterations are too few, 34 enough. -/
theorem exCal (v : Nat → Bool) (h2 : v 2 = true) (h34 : v 34 = true) :
    CalRun 1000000000 true v Cal.start [(2, some 60000000), (34, some 1020000000)] (.ok 34) :=
  .more (c' := ⟨3, 2, 60000000⟩) rfl h2 (by decide) (by simp [Cal.advance, Cal.start])
    (.enough (by simp [Cal.cost, ceilDivide]) h34 (by decide))

/-! ## The default configuration -/

/-- **C83 (default configuration)**: with a core and 19 MiB of memory there is a hasher, each hasher has at least 19 MiB,
and together they never use more memory than there is. -/
theorem C83_default_memory {cores memory : Nat} (hc : 0 < cores) (hm : minimumRam ≤ memory) :
    ∃ ram, defaultRam memory (defaultHashers cores memory) = some ram ∧ 0 < defaultHashers cores memory ∧
      defaultHashers cores memory ≤ (cores + 3) / 4 ∧ 19 * 1024 * 1024 ≤ ram ∧
      defaultHashers cores memory * ram ≤ memory := by
  have hq : 0 < memory / minimumRam := Nat.div_pos hm (by decide)
  have hcl : 0 < clampU32 (memory / minimumRam) := by unfold clampU32; split <;> omega
  have hcl2 : clampU32 (memory / minimumRam) ≤ memory / minimumRam := by unfold clampU32; split <;> omega
  have hh : 0 < defaultHashers cores memory ∧ defaultHashers cores memory ≤ (cores + 3) / 4 ∧
      defaultHashers cores memory ≤ memory / minimumRam := by
    unfold defaultHashers
    have : 0 < (cores + 3) / 4 := Nat.div_pos (by omega) (by decide)
    dsimp only
    split <;> rename_i h
    · exact ⟨hcl, by omega, hcl2⟩
    · refine ⟨this, Nat.le_refl _, ?_⟩
      have : ¬ (cores + 3) / 4 > clampU32 (memory / minimumRam) := fun h' => h ⟨hcl, h'⟩
      omega
  obtain ⟨h1, h2, h3⟩ := hh
  generalize defaultHashers cores memory = n at *
  refine ⟨max (clampU32 memory / 32 / n) minimumRam, by unfold defaultRam; rw [if_neg (by omega)], h1, h2,
    Nat.le_max_right _ _, ?_⟩
  have hcm : clampU32 memory ≤ memory := by unfold clampU32; split <;> omega
  rcases Nat.le_total (clampU32 memory / 32 / n) minimumRam with h | h
  · rw [Nat.max_eq_right h]
    exact (Nat.le_div_iff_mul_le (by decide)).mp h3
  · rw [Nat.max_eq_left h]
    have := Nat.mul_div_le (clampU32 memory / 32) n
    have := Nat.div_le_self (clampU32 memory) 32
    omega

/-- The hypotheses are met by 16 cores and 16 GiB. -/
example : 0 < 16 ∧ minimumRam ≤ 16 * 2 ^ 30 := by decide

/-- **C83 is violated**: the memory per hasher is not a sixteenth of the system's divided by the hashers, as documented:
it is at most 128 MiB for all together (or the minimum) however much memory there is; with the documented example of
16 GiB and 4 hashers it is 32 MiB and not 256. -/
theorem C83_violated_default_ram :
    (∀ memory hashers ram, defaultRam memory hashers = some ram → ram * hashers ≤ max (2 ^ 27) (minimumRam * hashers)) ∧
    defaultRam (16 * 2 ^ 30) 4 = some (2 ^ 25 - 1) := by
  refine ⟨?_, by decide⟩
  intro memory hashers ram h
  unfold defaultRam at h
  split at h
  · cases h
  · cases h
    have hc : clampU32 memory ≤ 2 ^ 32 := by unfold clampU32; split <;> omega
    rcases Nat.le_total (clampU32 memory / 32 / hashers) minimumRam with h | h
    · rw [Nat.max_eq_right h]; exact Nat.le_max_right _ _
    · rw [Nat.max_eq_left h]
      refine Nat.le_trans (Nat.div_mul_le_self _ _) (Nat.le_trans ?_ (Nat.le_max_left _ _))
      omega

end Bonsai.Argon
