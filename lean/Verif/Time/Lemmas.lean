import Verif.Time.Model
import Verif.Key.Props

set_option linter.unusedSimpArgs false

/-! # Helper lemmas for the time model -/

namespace Bonsai.Time

theorem Dur.ofTotal_total {d : Dur} (h : d.WF) : Dur.ofTotal d.total = d := by
  obtain ⟨_, h⟩ := h
  cases d; simp only [Dur.ofTotal, Dur.total, Dur.mk.injEq, NS] at *; omega

theorem Dur.total_ofTotal (n : Nat) : (Dur.ofTotal n).total = n := by
  simp only [Dur.ofTotal, Dur.total, NS]; omega

theorem Dur.lt_iff {a b : Dur} (ha : a.WF) (hb : b.WF) : a.lt b ↔ a.total < b.total := by
  obtain ⟨_, ha⟩ := ha; obtain ⟨_, hb⟩ := hb
  simp only [Dur.lt, Dur.total, NS] at *; omega

theorem Dur.total_inj {a b : Dur} (ha : a.WF) (hb : b.WF) (h : a.total = b.total) : a = b := by
  rw [← Dur.ofTotal_total ha, ← Dur.ofTotal_total hb, h]

theorem Dur.checkedAdd_spec {a b : Dur} (ha : a.WF) (hb : b.WF) :
    (∃ c, a.checkedAdd b = some c ∧ c.WF ∧ c.total = a.total + b.total) ∨
    (a.checkedAdd b = none ∧ 2 ^ 64 * NS ≤ a.total + b.total) := by
  obtain ⟨ha1, ha2⟩ := ha; obtain ⟨hb1, hb2⟩ := hb
  simp only [NS] at *
  unfold Dur.checkedAdd
  simp only [Dur.total, NS]
  split
  · split
    · split
      · left; refine ⟨_, rfl, ⟨?_, ?_⟩, ?_⟩ <;> simp only [NS, Dur.total] <;> omega
      · right; refine ⟨rfl, ?_⟩; omega
    · left; refine ⟨_, rfl, ⟨?_, ?_⟩, ?_⟩ <;> simp only [NS, Dur.total] <;> omega
  · right; refine ⟨rfl, ?_⟩; omega

theorem Dur.checkedSub_spec {a b : Dur} (ha : a.WF) (hb : b.WF) :
    (∃ c, a.checkedSub b = some c ∧ c.WF ∧ c.total + b.total = a.total) ∨
    (a.checkedSub b = none ∧ a.total < b.total) := by
  obtain ⟨ha1, ha2⟩ := ha; obtain ⟨hb1, hb2⟩ := hb
  simp only [NS] at *
  unfold Dur.checkedSub
  simp only [Dur.total, NS]
  split
  · split
    · left; refine ⟨_, rfl, ⟨?_, ?_⟩, ?_⟩ <;> simp only [NS, Dur.total] <;> omega
    · split
      · left; refine ⟨_, rfl, ⟨?_, ?_⟩, ?_⟩ <;> simp only [NS, Dur.total] <;> omega
      · right; refine ⟨rfl, ?_⟩; omega
  · right; refine ⟨rfl, ?_⟩; omega

/-! ## decimal text -/

theorem digit_ofNat {k : Nat} (h : k < 10) : digit (Char.ofNat (48 + k)) = some k := by
  have : ∀ k : Fin 10, digit (Char.ofNat (48 + k.val)) = some k.val := by decide
  exact this ⟨k, h⟩

theorem decimal_ne_nil (n : Nat) : decimal n ≠ [] := by
  unfold decimal; split <;> simp

/-- Characters produced by `decimal`. -/
def IsDigit (c : Char) : Prop := ∃ k, k < 10 ∧ c = Char.ofNat (48 + k)

theorem IsDigit.ne_dot {c : Char} (h : IsDigit c) : c ≠ '.' := by
  obtain ⟨k, hk, rfl⟩ := h
  have : ∀ k : Fin 10, Char.ofNat (48 + k.val) ≠ '.' := by decide
  exact this ⟨k, hk⟩

theorem IsDigit.ne_plus {c : Char} (h : IsDigit c) : c ≠ '+' := by
  obtain ⟨k, hk, rfl⟩ := h
  have : ∀ k : Fin 10, Char.ofNat (48 + k.val) ≠ '+' := by decide
  exact this ⟨k, hk⟩

theorem IsDigit.size {c : Char} (h : IsDigit c) : c.utf8Size = 1 := by
  obtain ⟨k, hk, rfl⟩ := h
  have : ∀ k : Fin 10, (Char.ofNat (48 + k.val)).utf8Size = 1 := by decide
  exact this ⟨k, hk⟩

theorem IsDigit.zero : IsDigit '0' := ⟨0, by decide, by decide⟩

theorem decimal_digits (n : Nat) : ∀ c ∈ decimal n, IsDigit c := by
  fun_induction decimal n with
  | case1 n h => intro c hc; simp only [List.mem_singleton] at hc; exact ⟨n, h, hc⟩
  | case2 n h ih =>
    intro c hc
    simp only [List.mem_append, List.mem_singleton] at hc
    rcases hc with hc | hc
    · exact ih c hc
    · exact ⟨n % 10, Nat.mod_lt _ (by decide), hc⟩

theorem parseDigits_append (b : Nat) (acc : Nat) (s t : List Char) :
    parseDigits b acc (s ++ t) = (parseDigits b acc s).bind (fun x => parseDigits b x t) := by
  induction s generalizing acc with
  | nil => rfl
  | cons c cs ih =>
    simp only [List.cons_append, parseDigits]
    split
    · rfl
    · split
      · exact ih _
      · rfl

theorem parseDigits_decimal {b n : Nat} (h : n < b) : parseDigits b 0 (decimal n) = some n := by
  fun_induction decimal n with
  | case1 n h10 => simp [parseDigits, digit_ofNat h10, h]
  | case2 n h10 ih =>
    have hm : n % 10 < 10 := Nat.mod_lt _ (by decide)
    rw [parseDigits_append, ih (by omega)]
    simp only [Option.bind_some, parseDigits, digit_ofNat hm]
    rw [show n / 10 * 10 + n % 10 = n by omega]; simp [h]

theorem parseDigits_zeros {b : Nat} (hb : 0 < b) (k : Nat) :
    parseDigits b 0 (List.replicate k '0') = some 0 := by
  induction k with
  | zero => rfl
  | succ k ih =>
    simp only [List.replicate_succ, parseDigits, show digit '0' = some 0 by decide]
    simp [hb, ih]

theorem parseUnsigned_digits {b : Nat} {s : List Char} (hne : s ≠ []) (hd : ∀ c ∈ s, IsDigit c) :
    parseUnsigned b s = parseDigits b 0 s := by
  unfold parseUnsigned
  split
  · exact absurd rfl hne
  · exact absurd rfl (hd '+' (by simp)).ne_plus
  · exact absurd rfl (hd '+' (by simp)).ne_plus
  · rfl

theorem decimal_length_le {n k : Nat} (hk : 0 < k) (h : n < 10 ^ k) : (decimal n).length ≤ k := by
  fun_induction decimal n generalizing k with
  | case1 n _ => simp; omega
  | case2 n h10 ih =>
    simp only [List.length_append, List.length_singleton]
    obtain ⟨j, rfl⟩ : ∃ j, k = j + 1 := ⟨k - 1, by omega⟩
    have hj : 0 < j := by
      rcases j with _ | j
      · simp at h; omega
      · omega
    have := ih hj (by rw [Nat.pow_succ] at h; omega)
    omega

theorem padded_length {w n : Nat} (hw : 0 < w) (h : n < 10 ^ w) : (padded w n).length = w := by
  have := decimal_length_le hw h
  simp only [padded, List.length_append, List.length_replicate]; omega

theorem padded_digits (w n : Nat) : ∀ c ∈ padded w n, IsDigit c := by
  intro c hc
  simp only [padded, List.mem_append, List.mem_replicate] at hc
  rcases hc with ⟨_, rfl⟩ | hc
  · exact IsDigit.zero
  · exact decimal_digits n c hc

theorem padded_ne_nil (w n : Nat) : padded w n ≠ [] := by
  simp [padded, decimal_ne_nil]

theorem parse_padded {b n : Nat} (w : Nat) (h : n < b) : parseUnsigned b (padded w n) = some n := by
  rw [parseUnsigned_digits (padded_ne_nil w n) (padded_digits w n), padded, parseDigits_append,
    parseDigits_zeros (by omega)]
  exact parseDigits_decimal h

theorem utf8Len_digits {s : List Char} (h : ∀ c ∈ s, IsDigit c) : utf8Len s = s.length := by
  induction s with
  | nil => rfl
  | cons c cs ih =>
    have h1 := (h c (by simp)).size
    have h2 := ih (fun c hc => h c (by simp [hc]))
    simp only [utf8Len, List.map_cons, List.sum_cons, List.length_cons] at *
    omega

theorem splitDot_digits {s : List Char} (h : ∀ c ∈ s, IsDigit c) : splitDot s = [s] := by
  induction s with
  | nil => rfl
  | cons c cs ih =>
    simp only [splitDot, ih (fun c hc => h c (by simp [hc])), (h c (by simp)).ne_dot, if_false]

theorem splitDot_two {s t : List Char} (hs : ∀ c ∈ s, IsDigit c) (ht : ∀ c ∈ t, IsDigit c) :
    splitDot (s ++ '.' :: t) = [s, t] := by
  induction s with
  | nil => simp [splitDot, splitDot_digits ht]
  | cons c cs ih =>
    simp only [List.cons_append, splitDot, ih (fun c hc => hs c (by simp [hc])),
      (hs c (by simp)).ne_dot, if_false]

theorem parse_decimal_padded {secs n w : Nat} (hs : secs < 2 ^ 64) (hw : 0 < w) (hw9 : w ≤ 9)
    (hn : n < 10 ^ w) :
    parseDur (decimal secs ++ '.' :: padded w n) =
      if n * 10 ^ (9 - w) < 2 ^ 32 then Dur.new secs (n * 10 ^ (9 - w)) else .panic := by
  unfold parseDur
  rw [splitDot_two (decimal_digits secs) (padded_digits w n)]
  have hb : n < 2 ^ 32 := by
    have : 10 ^ w ≤ 10 ^ 9 := Nat.pow_le_pow_right (by decide) hw9
    omega
  simp only [parseUnsigned_digits (decimal_ne_nil secs) (decimal_digits secs),
    parseDigits_decimal hs, utf8Len_digits (padded_digits w n), padded_length hw hn,
    parse_padded w hb]
  simp only [ne_eq, not_true_eq_false, or_false, gt_iff_lt, Nat.not_lt.mpr hw9, if_false]

theorem parseDur_displayDur {d : Dur} (h : d.WF) : parseDur (displayDur d) = .ok d := by
  obtain ⟨h1, h2⟩ := h
  obtain ⟨secs, nanos⟩ := d
  simp only [NS] at *
  unfold displayDur
  split
  · rename_i hpos
    split
    · rw [parse_decimal_padded h1 (by decide) (by decide) (by simp at *; omega)]
      simp only at *
      rw [if_pos (by omega), show nanos / 1000000 * 10 ^ (9 - 3) = nanos by omega]
      simp [Dur.new, NS, h2]
    · split
      · rw [parse_decimal_padded h1 (by decide) (by decide) (by simp at *; omega)]
        simp only at *
        rw [if_pos (by omega), show nanos / 1000 * 10 ^ (9 - 6) = nanos by omega]
        simp [Dur.new, NS, h2]
      · rw [parse_decimal_padded h1 (by decide) (by decide) (by simp at *; omega)]
        simp only at *
        rw [if_pos (by omega), show nanos * 10 ^ (9 - 9) = nanos by omega]
        simp [Dur.new, NS, h2]
  · simp only at *
    have : nanos = 0 := by omega
    subst this
    unfold parseDur
    simp only [List.append_nil]
    rw [splitDot_digits (decimal_digits secs)]
    simp only [parseUnsigned_digits (decimal_ne_nil secs) (decimal_digits secs),
      parseDigits_decimal h1]

end Bonsai.Time
