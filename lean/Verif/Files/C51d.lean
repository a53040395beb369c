import Verif.Files.C51c

/-!
# C51: how much a reader buffers
-/
set_option linter.unusedSimpArgs false
set_option linter.unusedVariables false

namespace Bonsai.Files
open Bonsai Bonsai.Names Bonsai.Store Bonsai.Query

/-- The bytes of some blocks of a file. -/
def blockBytes (bs : List BlockInfo) : Nat := (bs.map (·.length)).sum

theorem fits_spec (n : Nat) : ∀ (bs : List BlockInfo) (size : Nat), fits n size bs ≤ bs.length ∧
    (fits n size bs ≠ 0 → size + blockBytes (bs.take (fits n size bs)) ≤ n) ∧
    (fits n size bs < bs.length → n < size + blockBytes (bs.take (fits n size bs + 1)))
  | [], size => by simp [fits]
  | b :: bs, size => by
    have ih := fits_spec n bs (b.length + size)
    unfold fits
    by_cases h : b.length + size > n
    · rw [if_pos h]
      simp [blockBytes]
      omega
    · rw [if_neg h]
      obtain ⟨h1, h2, h3⟩ := ih
      generalize fits n (b.length + size) bs = k at h1 h2 h3 ⊢
      rw [Nat.add_comm 1 k]
      simp only [List.take_succ_cons, blockBytes, List.map_cons, List.sum_cons, List.length_cons] at h2 h3 ⊢
      refine ⟨by omega, fun _ => ?_, fun hk => ?_⟩
      · by_cases hk : k = 0
        · subst hk; simp; omega
        · have := h2 hk; omega
      · have := h3 (by omega)
        omega

/-- Each time a reader requests blocks, it requests the blocks that follow its position, at least one of them;
together they hold at most `buffer_size` bytes unless it is a single block; and as many as that allows. -/
theorem C51_buffer_bound (r : Reader) (h : r.cur < r.blocks.length) :
    ∃ k, 1 ≤ k ∧ k ≤ (r.blocks.drop r.cur).length ∧
      r.nextBlocks = ((r.blocks.drop r.cur).take k).map (fun b => b.header.id) ∧
      (k = 1 ∨ blockBytes ((r.blocks.drop r.cur).take k) ≤ r.bufSize) ∧
      (k < (r.blocks.drop r.cur).length → r.bufSize < blockBytes ((r.blocks.drop r.cur).take (k + 1))) := by
  have hl : (r.blocks.drop r.cur).length ≠ 0 := by rw [List.length_drop]; omega
  obtain ⟨h1, h2, h3⟩ := fits_spec r.bufSize (r.blocks.drop r.cur) 0
  refine ⟨max 1 (fits r.bufSize 0 (r.blocks.drop r.cur)), by omega, by omega, rfl, ?_, fun hk => ?_⟩
  · by_cases h0 : fits r.bufSize 0 (r.blocks.drop r.cur) ≤ 1
    · exact .inl (by omega)
    · refine .inr ?_
      rw [Nat.max_eq_right (by omega)]
      have := h2 (by omega)
      omega
  · by_cases h0 : fits r.bufSize 0 (r.blocks.drop r.cur) = 0
    · rw [h0] at h3 ⊢
      have h4 := h3 (by omega)
      simp only [Nat.zero_add, Nat.max_eq_left, Nat.le_refl] at h4 ⊢
      cases hb : r.blocks.drop r.cur with
      | nil => rw [hb] at hl; exact absurd rfl hl
      | cons b bs =>
        rw [hb] at h4
        simp only [blockBytes, List.take_succ_cons, List.take_zero, List.map_cons, List.sum_cons, List.map_nil,
          List.sum_nil] at h4 ⊢
        have : max 1 0 = 1 := rfl
        simp only [this, List.take_succ_cons, List.map_cons, List.sum_cons]
        omega
    · rw [Nat.max_eq_right (by omega)] at hk ⊢
      have := h3 hk
      omega

/-- A reader in the middle of a file, whose buffer holds the next two of three remaining blocks exactly. -/
example : ∃ r : Reader, r.cur < r.blocks.length ∧ r.nextBlocks.length = 2 ∧
    blockBytes ((r.blocks.drop r.cur).take 2) = r.bufSize :=
  ⟨⟨[⟨⟨[1], ⟨0, []⟩⟩, 0, 5, none⟩, ⟨⟨[2], ⟨0, []⟩⟩, 5, 3, none⟩, ⟨⟨[3], ⟨0, []⟩⟩, 8, 4, none⟩,
      ⟨⟨[4], ⟨0, []⟩⟩, 12, 1, none⟩], [], 1, 0, 7⟩,
    by decide, by decide, by decide⟩

end Bonsai.Files
