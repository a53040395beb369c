import Verif.Time.C11c

set_option linter.unusedSimpArgs false

/-! # C13: text form of limited-resolution timestamps -/

namespace Bonsai.Time

/-- The two epochs of the library (`UnixEpoch`, `BonsaiEpoch`); user-defined ones must be less than
the magnitude of the smallest representation. -/
def StdEpoch (e : Epoch) : Prop := e = unixEpoch ∨ e = bonsaiEpoch

theorem reprToDuration_WF (r : Resolution) (v : Int) (hv : r.Valid v) : (reprToDuration r v).WF := by
  by_cases h : MinIsWrong r ∧ v = r.minRepr
  · obtain ⟨h1, rfl⟩ := h
    rcases h1 with rfl | rfl | rfl <;> decide
  · exact (C11_to_duration_exact_partial r v hv (fun a b => h ⟨a, b⟩)).1

theorem min_not_since_epoch (r : Resolution) (e : Epoch) (he : StdEpoch e) :
    sinceUnixEpoch r e r.minRepr = none := by
  rcases he with rfl | rfl <;> cases r <;> decide

/-- C13: if a timestamp has a Unix time, the text it displays parses back to the same timestamp -
at every resolution and for both epochs. -/
theorem C13_round_trip_partial (r : Resolution) (e : Epoch) (he : StdEpoch e) (v : Int)
    (hv : r.Valid v) (hrep : sinceUnixEpoch r e v ≠ none) :
    parseTimestamp r e (displayTimestamp r e v) = .ok v := by
  have hmin : v ≠ r.minRepr := fun h => hrep (h ▸ min_not_since_epoch r e he)
  have hwe : e.WF := by rcases he with rfl | rfl <;> decide
  have hwr := reprToDuration_WF r v hv
  obtain ⟨_, hex⟩ := C11_to_duration_exact_partial r v hv (fun _ => hmin)
  have hrt := C11_round_trip_partial r v hv (fun h => absurd h hmin)
  cases hs : sinceUnixEpoch r e v with
  | none => exact absurd hs hrep
  | some d =>
    have hdisp : displayTimestamp r e v = displayDur d := by
      simp only [displayTimestamp, toTimestampString, hs, Option.map_some]
    rw [hdisp, parseTimestamp]
    unfold sinceUnixEpoch at hs
    have hu : 0 < unitNanos r := by cases r <;> decide
    split at hs
    · rename_i o ho
      rw [ho] at hwr hrt
      rcases Dur.checkedAdd_spec (a := e) (b := o) hwe hwr with ⟨c, hc, hw, ht⟩ | ⟨hc, _⟩
      · rw [hc] at hs; injection hs with hs; subst hs
        rw [parseDur_displayDur hw]
        simp only [Res.bind_ok]
        have hnl : ¬ c.lt e := by rw [Dur.lt_iff hw hwe]; omega
        rw [if_neg hnl]
        rcases Dur.checkedSub_spec hw hwe with ⟨x, hx, hwx, htx⟩ | ⟨_, htx⟩
        · have : x = o := Dur.total_inj hwx hwr (by omega)
          subst this
          rw [hx]; exact hrt
        · omega
      · rw [hc] at hs; simp at hs
    · rename_i o ho
      rw [ho] at hwr hrt
      -- a negative representation has a positive magnitude
      have hneg : v < 0 := by
        unfold reprToDuration at ho
        split at ho
        · simp at ho
        · omega
      have hpos : 0 < o.total := by
        rw [ho] at hex
        simp only [SDur.total] at hex
        have : v * unitNanos r < 0 := Int.mul_neg_of_neg_of_pos hneg hu
        omega
      rcases Dur.checkedSub_spec (a := e) (b := o) hwe hwr with ⟨c, hc, hw, ht⟩ | ⟨hc, _⟩
      · rw [hc] at hs; injection hs with hs; subst hs
        rw [parseDur_displayDur hw]
        simp only [Res.bind_ok]
        have hl : c.lt e := by rw [Dur.lt_iff hw hwe]; omega
        rw [if_pos hl]
        rcases Dur.checkedSub_spec hwe hw with ⟨x, hx, hwx, htx⟩ | ⟨_, htx⟩
        · have : x = o := Dur.total_inj hwx hwr (by omega)
          subst this
          rw [hx]; exact hrt
        · omega
      · rw [hc] at hs; simp at hs

example : StdEpoch bonsaiEpoch ∧ Resolution.Valid .milliseconds (-1500) ∧
    sinceUnixEpoch .milliseconds bonsaiEpoch (-1500) ≠ none ∧
    displayTimestamp .milliseconds bonsaiEpoch (-1500) = ['1', '9', '3', '1', '7', '4', '7', '5',
      '0', '5', '.', '5', '0', '0'] := by
  refine ⟨.inr rfl, by decide, by decide, ?_⟩
  have h : sinceUnixEpoch .milliseconds bonsaiEpoch (-1500) = some ⟨1931747505, 500000000⟩ := by
    decide
  simp only [displayTimestamp, toTimestampString, h, Option.map_some, displayDur]
  simp [decimal, padded]

theorem parseDigits_bad {b : Nat} (acc : Nat) (s : List Char) {c : Char} (hc : digit c = none)
    (t : List Char) : parseDigits b acc (s ++ c :: t) = none := by
  rw [parseDigits_append]
  cases parseDigits b acc s with
  | none => rfl
  | some x => simp [parseDigits, hc]

theorem splitDot_nodot {s : List Char} (h : ∀ c ∈ s, c ≠ '.') : splitDot s = [s] := by
  induction s with
  | nil => rfl
  | cons c cs ih =>
    simp only [splitDot, ih (fun c hc => h c (by simp [hc])), h c (by simp), if_false]

/-- C13: a timestamp without a Unix time displays a text that is refused, never one that parses as a
different timestamp. -/
theorem C13_fallback_refused (r : Resolution) (e : Epoch) (v : Int)
    (h : sinceUnixEpoch r e v = none) :
    parseTimestamp r e (displayTimestamp r e v) = .err := by
  have hd : displayTimestamp r e v = decimalInt v ++ suffix r := by
    simp only [displayTimestamp, toTimestampString, h, Option.map_none]
  obtain ⟨c, t, hct, hcd, hsuf⟩ : ∃ c t, suffix r = c :: t ∧ digit c = none ∧ ∀ x ∈ suffix r, x ≠ '.' := by
    cases r <;> exact ⟨_, _, rfl, by decide, by decide⟩
  have hpd : parseDur (decimalInt v ++ suffix r) = .err := by
    unfold parseDur
    have hnd : ∀ x ∈ decimalInt v ++ suffix r, x ≠ '.' := by
      intro x hx
      rw [List.mem_append] at hx
      rcases hx with hx | hx
      · unfold decimalInt at hx
        split at hx
        · rw [List.mem_cons] at hx
          rcases hx with rfl | hx
          · decide
          · exact (decimal_digits _ x hx).ne_dot
        · exact (decimal_digits _ x hx).ne_dot
      · exact hsuf x hx
    rw [splitDot_nodot hnd]
    have hp : parseUnsigned (2 ^ 64) (decimalInt v ++ suffix r) = none := by
      rw [hct]
      unfold decimalInt
      split
      · show parseDigits (2 ^ 64) 0 ('-' :: (decimal v.natAbs ++ c :: t)) = none
        simp only [parseDigits, show digit '-' = none by decide]
      · have hne := decimal_ne_nil v.toNat
        cases hdec : decimal v.toNat with
        | nil => exact absurd hdec hne
        | cons a as =>
          have ha : a ≠ '+' := (decimal_digits v.toNat a (by rw [hdec]; simp)).ne_plus
          have : parseUnsigned (2 ^ 64) ((a :: as) ++ c :: t) =
              parseDigits (2 ^ 64) 0 ((a :: as) ++ c :: t) := by
            unfold parseUnsigned
            split
            · rename_i h; simp at h
            · rename_i h; simp at h
            · rename_i h; simp only [List.cons_append, List.cons.injEq] at h; exact absurd h.1 ha
            · rfl
          rw [this]; exact parseDigits_bad _ _ hcd _
    simp only [hp]
  rw [hd, parseTimestamp, hpd]; rfl

/-- C13 violated: a timestamp before the Unix epoch has no text that parses back. -/
theorem C13_violated_before_unix_epoch :
    Resolution.Valid .nanoseconds (-1) ∧
    parseTimestamp .nanoseconds unixEpoch (displayTimestamp .nanoseconds unixEpoch (-1)) = .err :=
  ⟨by decide, C13_fallback_refused _ _ _ (by decide)⟩

example : sinceUnixEpoch .days bonsaiEpoch (-100000) = none := by decide

end Bonsai.Time
