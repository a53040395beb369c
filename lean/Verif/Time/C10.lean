import Verif.Time.Spec
import Verif.Time.Lemmas

set_option linter.unusedSimpArgs false

/-! # C10: duration and system time keys -/

namespace Bonsai.Time

/-- A lawful codec exists: sixteen big-endian bytes.  (The real one is shorter.) -/
def fixedCodec : Varint U124 where
  enc n := toBE 16 n.val
  dec b := if h : b.length = 16 ∧ fromBE b < 2 ^ 124 then some ⟨fromBE b, h.2⟩ else none

theorem fixedCodec_lawful : LawfulVarint fixedCodec (fun a b => a.val < b.val) where
  dec_enc v := by
    have h : v.val < 256 ^ 16 := by have := v.isLt; omega
    simp [fixedCodec, toBE_length, fromBE_toBE h]
  order v w := by
    have h : v.val < 256 ^ 16 := by have := v.isLt; omega
    have h' : w.val < 256 ^ 16 := by have := w.isLt; omega
    exact toBE_lt_iff h h'
  prefixFree v w h := by
    have h1 : v.val < 256 ^ 16 := by have := v.isLt; omega
    have h' : w.val < 256 ^ 16 := by have := w.isLt; omega
    have he : toBE 16 v.val = toBE 16 w.val :=
      List.IsPrefix.eq_of_length h (by simp [fixedCodec, toBE_length])
    have := congrArg fromBE he
    rw [fromBE_toBE h1, fromBE_toBE h'] at this
    exact Fin.ext this

/-! ## C10 -/

theorem merged_lt {d : Dur} (h : d.WF) : merged d < 2 ^ 124 := by
  obtain ⟨h1, h2⟩ := h; simp only [merged, NS] at *; omega

/-- C10: every `Duration` encodes; comparing encodings byte-wise compares the lengths; and decoding
gives the same duration back. -/
theorem C10_duration_keys (c : Varint U124) (hc : LawfulVarint c (fun a b => a.val < b.val))
    (a b : Dur) (ha : a.WF) (hb : b.WF) :
    ∃ x y, durationEnc c a = .ok x ∧ durationEnc c b = .ok y ∧
      (x < y ↔ a.total < b.total) ∧ durationDec c x = .ok a := by
  have ma := merged_lt ha
  have mb := merged_lt hb
  refine ⟨_, _, dif_pos ma, dif_pos mb, ?_, ?_⟩
  · rw [hc.order]
    obtain ⟨_, ha⟩ := ha; obtain ⟨_, hb⟩ := hb
    simp only [merged, Dur.total, NS] at *; omega
  · obtain ⟨h1, h2⟩ := ha
    have e1 : merged a / 2 ^ 30 = a.secs := by simp only [merged, NS] at *; omega
    have e2 : merged a % 2 ^ 30 = a.nanos := by simp only [merged, NS] at *; omega
    unfold durationDec
    rw [hc.dec_enc]
    show (if merged a / 2 ^ 30 < 2 ^ 64 then Dur.new (merged a / 2 ^ 30) (merged a % 2 ^ 30)
      else .err) = _
    rw [e1, e2, if_pos h1, Dur.new, if_pos h2]

example : (⟨5, 999999999⟩ : Dur).WF ∧ (⟨6, 0⟩ : Dur).WF := by
  simp [Dur.WF, NS]

/-- C10, rejection: bytes holding a number of seconds that does not fit in 64 bits are an error, and
whatever is accepted is a well-formed duration. -/
theorem C10_out_of_range_rejected (c : Varint U124) (b : Bytes) :
    (∀ m, c.dec b = some m → 2 ^ 64 ≤ m.val / 2 ^ 30 → durationDec c b = .err) ∧
    (∀ d, durationDec c b = .ok d → d.WF) := by
  constructor
  · intro m hm h
    simp only [durationDec, hm, if_neg (Nat.not_lt.mpr h)]
  · intro d hd
    unfold durationDec at hd
    split at hd
    · simp at hd
    · rename_i m hm
      split at hd
      · rename_i hlt
        unfold Dur.new at hd
        split at hd
        · rename_i h2; simp at hd; subst hd; exact ⟨hlt, h2⟩
        · split at hd
          · rename_i h3; simp at hd; subst hd; exact ⟨h3, Nat.mod_lt _ (by decide)⟩
          · simp at hd
      · simp at hd

/-- C10, rejection fails: decoding does not only return errors.  Bytes whose low 30 bits are a
number of nanoseconds above 999 999 999 and whose seconds are `u64::MAX` panic inside
`Duration::new`. -/
theorem C10_violated_decode_panics (c : Varint U124)
    (hc : LawfulVarint c (fun a b => a.val < b.val)) : ∃ b, durationDec c b = .panic :=
  ⟨c.enc ⟨(2 ^ 64 - 1) * 2 ^ 30 + (2 ^ 30 - 1), by decide⟩, by
    unfold durationDec; rw [hc.dec_enc]; decide⟩

/-- C10: the panic is the only one: it needs `u64::MAX` seconds. -/
theorem C10_decode_panics_only_at_max (c : Varint U124) (b : Bytes)
    (h : durationDec c b = .panic) : ∃ m, c.dec b = some m ∧ m.val / 2 ^ 30 = 2 ^ 64 - 1 := by
  unfold durationDec at h
  split at h
  · simp at h
  · rename_i m hm
    refine ⟨m, hm, ?_⟩
    split at h
    · rename_i hlt
      unfold Dur.new at h
      split at h
      · simp at h
      · split at h
        · simp at h
        · rename_i h1 h2; simp only [NS] at *; omega
    · simp at h

/-- C10 for `SystemTime`: times from the Unix epoch on (whose seconds fit the platform's `i64`)
sort and round-trip. -/
theorem C10_system_time_keys_partial (c : Varint U124)
    (hc : LawfulVarint c (fun a b => a.val < b.val)) (s t : Int)
    (hs : 0 ≤ s ∧ s < 2 ^ 63 * NS) (ht : 0 ≤ t ∧ t < 2 ^ 63 * NS) :
    ∃ x y, systemTimeEnc c s = .ok x ∧ systemTimeEnc c t = .ok y ∧ (x < y ↔ s < t) ∧
      systemTimeDec c x = .ok s := by
  have ws : (Dur.ofTotal s.toNat).WF := by
    simp only [NS] at *
    refine ⟨?_, Nat.mod_lt _ (by decide)⟩
    simp only [Dur.ofTotal, NS]; omega
  have wt : (Dur.ofTotal t.toNat).WF := by
    simp only [NS] at *
    refine ⟨?_, Nat.mod_lt _ (by decide)⟩
    simp only [Dur.ofTotal, NS]; omega
  obtain ⟨x, y, hx, hy, ho, hd⟩ := C10_duration_keys c hc _ _ ws wt
  refine ⟨x, y, ?_, ?_, ?_, ?_⟩
  · rw [systemTimeEnc, if_neg (by omega), hx]
  · rw [systemTimeEnc, if_neg (by omega), hy]
  · rw [ho, Dur.total_ofTotal, Dur.total_ofTotal]; omega
  · rw [systemTimeDec, hd]
    simp only [Res.bind_ok, Dur.total_ofTotal]
    have : (Dur.ofTotal s.toNat).secs < 2 ^ 63 := by simp only [Dur.ofTotal, NS] at *; omega
    rw [if_pos this]
    congr 1; omega

/-- C10 for `SystemTime`, violated before 1970: encoding such a time panics instead of failing. -/
theorem C10_violated_before_epoch (c : Varint U124) (t : Int) (h : t < 0) :
    systemTimeEnc c t = .panic := if_pos h

example : (0 : Int) ≤ 1700000000 * NS ∧ (1700000000 * NS : Int) < 2 ^ 63 * NS := by decide

end Bonsai.Time
