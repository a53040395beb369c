import Verif.Time.Spec
import Verif.Time.Lemmas

set_option linter.unusedSimpArgs false

/-! # C12: key-value timestamps -/

namespace Bonsai.Time

theorem carry_eq (s n : Nat) (h : n < 2 * NS) :
    Stamp.carry s n = if n > NS then ⟨min (s + 1) (2 ^ 64 - 1), n - NS⟩ else ⟨s, n⟩ := by
  rw [Stamp.carry]
  simp only [NS] at *
  split
  · rw [Stamp.carry, if_neg (by omega)]
  · rfl

/-- C12, addition: for a normalised timestamp the result is normalised and denotes exactly the sum,
provided the nanoseconds do not add up to exactly one second and the seconds do not overflow. -/
theorem C12_add_exact_partial (t : Stamp) (d : Dur) (ht : t.Normal) (hd : d.WF)
    (hns : t.nanos + d.nanos ≠ NS) (hsec : t.total + d.total < 2 ^ 64 * NS) :
    ∃ u, t.add d = .ok u ∧ u.Normal ∧ u.total = t.total + d.total := by
  obtain ⟨h1, h2⟩ := ht; obtain ⟨h3, h4⟩ := hd
  simp only [Stamp.total, Dur.total, NS] at *
  refine ⟨_, if_pos (by omega), ?_⟩
  rw [carry_eq _ _ (by simp only [NS]; omega)]
  simp only [NS]
  have hm : min (t.seconds + d.secs) (2 ^ 64 - 1) = t.seconds + d.secs := by omega
  rw [hm]
  split
  · rw [Nat.min_eq_left (by omega)]
    refine ⟨⟨?_, ?_⟩, ?_⟩ <;> simp only [NS] <;> omega
  · refine ⟨⟨?_, ?_⟩, ?_⟩ <;> simp only [NS] <;> omega

example : (⟨10, 600000000⟩ : Stamp).Normal ∧ (⟨1, 500000000⟩ : Dur).WF ∧
    (600000000 + 500000000 : Nat) ≠ NS ∧
    (⟨10, 600000000⟩ : Stamp).total + (⟨1, 500000000⟩ : Dur).total < 2 ^ 64 * NS := by decide

/-- C12, addition, value: even in the case of exactly one second the result denotes the right
moment; only its form is wrong. -/
theorem C12_add_denotes_sum (t : Stamp) (d : Dur) (ht : t.Normal) (hd : d.WF)
    (hsec : t.total + d.total < 2 ^ 64 * NS) :
    ∃ u, t.add d = .ok u ∧ u.total = t.total + d.total := by
  obtain ⟨h1, h2⟩ := ht; obtain ⟨h3, h4⟩ := hd
  simp only [Stamp.total, Dur.total, NS] at *
  refine ⟨_, if_pos (by omega), ?_⟩
  rw [carry_eq _ _ (by simp only [NS]; omega)]
  simp only [NS]
  have hm : min (t.seconds + d.secs) (2 ^ 64 - 1) = t.seconds + d.secs := by omega
  rw [hm]
  split
  · rw [Nat.min_eq_left (by omega)]
    show (t.seconds + d.secs + 1) * 1000000000 + (t.nanos + d.nanos - 1000000000) = _
    omega
  · show (t.seconds + d.secs) * 1000000000 + (t.nanos + d.nanos) = _
    omega

/-- C12 violated: when the nanoseconds add up to exactly one second the result is not normalised,
and it sorts before a timestamp that denotes the same or an earlier moment. -/
theorem C12_violated_exact_second :
    (⟨1, 500000000⟩ : Stamp).Normal ∧ (⟨0, 500000000⟩ : Dur).WF ∧
    Stamp.add ⟨1, 500000000⟩ ⟨0, 500000000⟩ = .ok ⟨1, 1000000000⟩ ∧
    ¬ (⟨1, 1000000000⟩ : Stamp).Normal ∧
    Stamp.total ⟨1, 1000000000⟩ = Stamp.total ⟨2, 0⟩ ∧ Stamp.lt ⟨1, 1000000000⟩ ⟨2, 0⟩ := by
  refine ⟨by decide, by decide, ?_, by decide, by decide, by decide⟩
  rw [Stamp.add, if_pos (by decide), carry_eq _ _ (by decide), if_neg (by decide)]; rfl

/-- C12 violated for every normalised timestamp: adding the rest of the current second always gives
a timestamp that is not normalised. -/
theorem C12_violated_always (t : Stamp) (ht : t.Normal) (h0 : 0 < t.nanos) :
    ∃ d u, Dur.WF d ∧ t.add d = .ok u ∧ ¬ u.Normal := by
  obtain ⟨h1, h2⟩ := ht
  simp only [NS] at *
  refine ⟨⟨0, 1000000000 - t.nanos⟩, _, ⟨show 0 < 2 ^ 64 by decide, ?_⟩, if_pos ?_, ?_⟩
  · simp only [NS]; omega
  · show t.nanos + (1000000000 - t.nanos) < 2 ^ 32; omega
  · have e : t.nanos + (1000000000 - t.nanos) = NS := by simp only [NS]; omega
    simp only [e]
    rw [carry_eq _ _ (by decide), if_neg (by decide)]
    rintro ⟨_, h⟩
    exact absurd h (Nat.lt_irrefl NS)

/-- C12 violated: saturation clamps only the seconds, so adding can move a timestamp back. -/
theorem C12_violated_saturation :
    (⟨2 ^ 64 - 1, 600000000⟩ : Stamp).Normal ∧ (⟨0, 500000000⟩ : Dur).WF ∧
    Stamp.add ⟨2 ^ 64 - 1, 600000000⟩ ⟨0, 500000000⟩ = .ok ⟨2 ^ 64 - 1, 100000000⟩ ∧
    Stamp.lt ⟨2 ^ 64 - 1, 100000000⟩ ⟨2 ^ 64 - 1, 600000000⟩ := by
  refine ⟨by decide, by decide, ?_, by decide⟩
  rw [Stamp.add, if_pos (by decide), carry_eq _ _ (by decide), if_pos (by decide)]; rfl

/-- C12, subtraction: exactly the difference, `None` exactly when it would be negative; never a
panic. -/
theorem C12_sub (a b : Stamp) (ha : a.Normal) (hb : b.Normal) :
    (b.total ≤ a.total → ∃ d, Stamp.sub a b = .ok (some d) ∧ d.WF ∧ d.total = a.total - b.total) ∧
    (a.total < b.total → Stamp.sub a b = .ok none) := by
  have wa : (⟨a.seconds, a.nanos⟩ : Dur).WF := ha
  have wb : (⟨b.seconds, b.nanos⟩ : Dur).WF := hb
  have e : Stamp.sub a b = .ok ((⟨a.seconds, a.nanos⟩ : Dur).checkedSub ⟨b.seconds, b.nanos⟩) := by
    simp only [Stamp.sub, Dur.new, if_pos ha.2, if_pos hb.2, Res.bind_ok, Res.map_ok]
  rw [e]
  have ta : (⟨a.seconds, a.nanos⟩ : Dur).total = a.total := rfl
  have tb : (⟨b.seconds, b.nanos⟩ : Dur).total = b.total := rfl
  rcases Dur.checkedSub_spec wa wb with ⟨c, hc, hw, ht⟩ | ⟨hc, ht⟩
  · rw [hc, ta, tb] at *
    exact ⟨fun _ => ⟨c, rfl, hw, by omega⟩, fun h => absurd h (by omega)⟩
  · rw [hc, ta, tb] at *
    exact ⟨fun h => absurd h (by omega), fun _ => rfl⟩

example : (⟨10, 5⟩ : Stamp).Normal ∧ (⟨9, 999999999⟩ : Stamp).Normal ∧
    Stamp.total ⟨9, 999999999⟩ ≤ Stamp.total ⟨10, 5⟩ := by decide

/-- C12, key encoding: twelve bytes, round-trips, sorts like the derived order - for every value
that fits the field types, normalised or not. -/
theorem C12_key (a b : Stamp) (ha : a.seconds < 2 ^ 64 ∧ a.nanos < 2 ^ 32)
    (hb : b.seconds < 2 ^ 64 ∧ b.nanos < 2 ^ 32) :
    a.enc.length = 12 ∧ Stamp.dec a.enc = .ok a ∧ (a.enc < b.enc ↔ a.lt b) := by
  obtain ⟨a1, a2⟩ := ha; obtain ⟨b1, b2⟩ := hb
  have l8 : ∀ n, (toBE 8 n).length = 8 := toBE_length 8
  have l4 : ∀ n, (toBE 4 n).length = 4 := toBE_length 4
  have p8 : ∀ n, n < 2 ^ 64 → n < 256 ^ 8 := fun n h => by omega
  have p4 : ∀ n, n < 2 ^ 32 → n < 256 ^ 4 := fun n h => by omega
  refine ⟨by simp [Stamp.enc, l8, l4], ?_, ?_⟩
  · have hl : a.enc.length = 12 := by simp [Stamp.enc, l8, l4]
    have e1 : a.enc.take 8 = toBE 8 a.seconds := by
      rw [Stamp.enc, List.take_append_of_le_length (by simp [l8]), List.take_of_length_le (by simp [l8])]
    have e2 : (a.enc.drop 8).take 4 = toBE 4 a.nanos := by
      rw [Stamp.enc, List.drop_append_of_le_length (by simp [l8]), List.drop_of_length_le (by simp [l8]),
        List.nil_append, List.take_of_length_le (by simp [l4])]
    simp only [Stamp.dec, hl, ne_eq, not_true_eq_false, if_false, e1, e2,
      fromBE_toBE (p8 _ a1), fromBE_toBE (p4 _ a2)]
  · simp only [Stamp.enc, Stamp.lt]
    rcases Nat.lt_trichotomy a.seconds b.seconds with h | h | h
    · have hlt := (toBE_lt_iff (p8 _ a1) (p8 _ b1)).2 h
      have := append_lt_append_of_lt hlt (by
        intro hp
        have := List.IsPrefix.eq_of_length hp (by simp [l8])
        rw [this] at hlt; exact bytes_lt_irrefl _ hlt) (toBE 4 a.nanos) (toBE 4 b.nanos)
      exact ⟨fun _ => .inl h, fun _ => this⟩
    · rw [h, append_lt_append_left_iff, toBE_lt_iff (p4 _ a2) (p4 _ b2)]
      constructor
      · intro h'; exact .inr ⟨rfl, h'⟩
      · rintro (h' | ⟨_, h'⟩)
        · omega
        · exact h'
    · have hlt := (toBE_lt_iff (p8 _ b1) (p8 _ a1)).2 h
      have := append_lt_append_of_lt hlt (by
        intro hp
        have := List.IsPrefix.eq_of_length hp (by simp [l8])
        rw [this] at hlt; exact bytes_lt_irrefl _ hlt) (toBE 4 b.nanos) (toBE 4 a.nanos)
      constructor
      · intro h'; exact absurd h' (bytes_lt_asymm this)
      · rintro (h' | ⟨h', _⟩) <;> omega

/-- C12: for normalised timestamps the derived order (and so the key order) is chronological. -/
theorem C12_key_chronological (a b : Stamp) (ha : a.Normal) (hb : b.Normal) :
    (a.enc < b.enc ↔ a.total < b.total) := by
  rw [(C12_key a b ⟨ha.1, by have := ha.2; simp only [NS] at this; omega⟩
    ⟨hb.1, by have := hb.2; simp only [NS] at this; omega⟩).2.2]
  obtain ⟨_, h1⟩ := ha; obtain ⟨_, h2⟩ := hb
  simp only [Stamp.lt, Stamp.total, NS] at *; omega

example : (⟨3, 7⟩ : Stamp).Normal ∧ (⟨3, 8⟩ : Stamp).Normal := by decide

/-- C12: adding beyond the largest timestamp never fails and never leaves the last second. -/
theorem C12_add_saturates (t : Stamp) (d : Dur) (ht : t.Normal) (hd : d.WF)
    (hsec : 2 ^ 64 * NS ≤ t.total + d.total) :
    ∃ u, t.add d = .ok u ∧ u.seconds = 2 ^ 64 - 1 ∧ u.nanos ≤ NS := by
  obtain ⟨h1, h2⟩ := ht; obtain ⟨h3, h4⟩ := hd
  simp only [Stamp.total, Dur.total, NS] at *
  refine ⟨_, if_pos (by omega), ?_⟩
  rw [carry_eq _ _ (by simp only [NS]; omega)]
  simp only [NS]
  split
  · show min (min (t.seconds + d.secs) (2 ^ 64 - 1) + 1) (2 ^ 64 - 1) = 2 ^ 64 - 1 ∧
      t.nanos + d.nanos - 1000000000 ≤ 1000000000
    omega
  · show min (t.seconds + d.secs) (2 ^ 64 - 1) = 2 ^ 64 - 1 ∧ t.nanos + d.nanos ≤ 1000000000
    omega

/-- C12: a timestamp key is exactly 12 bytes. -/
theorem C12_key_rejects (b : Bytes) : (Stamp.dec b = .err ↔ b.length ≠ 12) ∧ Stamp.dec b ≠ .panic := by
  unfold Stamp.dec
  split <;> simp_all

end Bonsai.Time
