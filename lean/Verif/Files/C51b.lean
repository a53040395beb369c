import Verif.Files.C51

/-!
# C51: the asynchronous reader, and what goes wrong

Beside the asynchronous counterparts of `C51.lean`, the cases in which the code breaks the property.
-/
set_option linter.unusedSimpArgs false
set_option linter.unusedSectionVars false

namespace Bonsai.Files
open Bonsai Bonsai.Names Bonsai.Store Bonsai.Query

/-! ## The asynchronous reader -/

/-- The asynchronous reader is at position `p`; if blocks were requested, they are the ones at that position. -/
structure AAt (ds : List Document) (a : AReader) (p : Nat) : Prop where
  at_ : At ds a.r p
  requested : ∀ ids, a.requested = some ids → a.r.loaded = [] ∧
    ∃ k, k ≠ 0 ∧ ids = ((ds.drop a.r.cur).take k).map fun d => d.header.id

theorem drain_cur_loaded {n : Nat} {r r' : Reader} : ∀ {l : List (Nat × Bytes)} {off cur : Nat},
    r.drain n l off cur = .need r' → r'.loaded = []
  | [], off, cur, h => by
    simp only [Reader.drain] at h
    split at h
    · cases h; rfl
    · cases h
  | (i, c) :: l, off, cur, h => by
    simp only [Reader.drain] at h
    split at h
    · cases h
    · split at h
      · cases h
      · exact drain_cur_loaded h

theorem nbRead_requested {n : Nat} {a : AReader} (hl : a.r.loaded = []) : a.r.nbRead n = if a.r.atBlock then .need a.r else .eof a.r := by
  unfold Reader.nbRead
  rw [hl]

/-- A block that was requested is labelled with its number. -/
theorem receive_at {ds : List Document} {m : OMap Document} (hs : Stored ds m) {a : AReader} {p n : Nat} (h : AAt ds a p)
    {ids : List Bytes} (hq : a.requested = some ids) {r' : Reader} (hx : a.r.nbRead n = .need r') :
    AAt ds ⟨{ r' with loaded := r'.loaded ++ number r'.cur (loadDocs m ids) }, none⟩ p := by
  obtain ⟨hl, k, hk, e⟩ := h.requested ids hq
  rw [nbRead_requested hl] at hx
  split at hx
  · cases hx
    refine ⟨⟨⟨h.at_.cur, h.at_.off, h.at_.pos, ?_⟩, h.at_.blocks⟩, fun _ h => (by cases h)⟩
    rw [hl, List.nil_append, e, loadDocs_eq hs]
    exact ⟨_, _, rfl⟩
  · cases hx

/-- **C51**: polling an asynchronous read.  When the poll is ready, it has put the next bytes of the file into the
buffer: all that were asked for, or all up to the end.  (When it is pending it may have put some bytes, too: see
`C51_violated_pending`.) -/
theorem C51_poll_read (ds : List Document) (m : OMap Document) (hs : Stored ds m) (a : AReader) (p : Nat) (h : AAt ds a p)
    (n : Nat) (hn : 0 < n) (o : Option (Bool × Bytes)) (a' : AReader) (hp : Poll m n a o a') :
    ∃ ready b, o = some (ready, b) ∧ b.length ≤ n ∧ b <+: (ds.flatMap payload).drop p ∧ AAt ds a' (p + b.length) ∧
      (ready = true → b = ((ds.flatMap payload).drop p).take n) := by
  induction hp generalizing p with
  | eof hx =>
    have hsp := nbRead_spec hn h.at_.len h.at_.toPos
    rw [hx] at hsp
    obtain ⟨h1, h2, h3⟩ := hsp
    rw [flatten_payload] at h1
    refine ⟨true, [], rfl, by simp, List.nil_prefix, ⟨⟨h2, by rw [h3, h.at_.blocks]⟩, ?_⟩, ?_⟩
    · intro ids hq
      obtain ⟨hl, -⟩ := h.requested ids hq
      rw [nbRead_requested hl] at hx
      split at hx
      · cases hx
      · cases hx; exact h.requested ids hq
    · intro _
      rw [h1, List.drop_length, List.take_nil]
  | full hx hb =>
    have hsp := nbRead_spec hn h.at_.len h.at_.toPos
    rw [hx] at hsp
    obtain ⟨h1, h2, h3, h4, h5⟩ := hsp
    rw [flatten_payload] at h3
    refine ⟨true, _, rfl, h2, h3, ⟨⟨h4, by rw [h5, h.at_.blocks]⟩, ?_⟩, ?_⟩
    · intro ids hq
      obtain ⟨hl, -⟩ := h.requested ids hq
      rw [nbRead_requested hl] at hx
      split at hx <;> cases hx
    · intro _
      rw [List.prefix_iff_eq_take.mp h3]
      congr 1
      omega
  | more hx hb hp' ih =>
    have hsp := nbRead_spec hn h.at_.len h.at_.toPos
    rw [hx] at hsp
    obtain ⟨h1, h2, h3, h4, h5⟩ := hsp
    rw [flatten_payload] at h3
    have hA : AAt ds { (_ : AReader) with r := _ } _ := ⟨⟨h4, by rw [h5, h.at_.blocks]⟩, fun ids hq => by
      obtain ⟨hl, -⟩ := h.requested ids hq
      rw [nbRead_requested hl] at hx
      split at hx <;> cases hx⟩
    obtain ⟨ready, b', e, i1, i2, i3, i4⟩ := ih _ hA hb
    cases e
    obtain ⟨t, ht⟩ := h3
    have hd : ∀ (b : Bytes), b ++ t = (ds.flatMap payload).drop p → (ds.flatMap payload).drop (p + b.length) = t := by
      intro b ht
      rw [← List.drop_drop, ← ht, List.drop_left]
    rw [hd _ ht] at i2 i4
    refine ⟨_, _, rfl, ?_, ?_, ?_, ?_⟩
    · rw [List.length_append]; omega
    · rw [← ht]
      exact List.prefix_append_right_inj _ |>.mpr i2
    · rw [List.length_append, ← Nat.add_assoc]; exact i3
    · intro hr
      rw [← ht, i4 hr, List.take_append, List.take_of_length_le h2]
  | request hx hq _ ih =>
    have hsp := nbRead_spec hn h.at_.len h.at_.toPos
    rw [hx] at hsp
    obtain ⟨-, h2, h3, h4⟩ := hsp
    have hb := h4.trans h.at_.blocks
    exact ih p ⟨⟨⟨h3.cur, h3.off, h3.pos, 0, 0, rfl⟩, hb⟩, fun ids e => by
      cases e
      exact ⟨rfl, nextBlocks_eq hb⟩⟩ hn
  | receive hx hq _ ih => exact ih p (receive_at hs h hq hx) hn
  | pending hx hq =>
    obtain ⟨hl, -⟩ := h.requested _ hq
    rw [nbRead_requested hl] at hx
    split at hx
    · cases hx
      exact ⟨false, [], rfl, by simp, List.nil_prefix, h, fun h => (by cases h)⟩
    · cases hx
  | panic hx =>
    have hsp := nbRead_spec hn h.at_.len h.at_.toPos
    rw [hx] at hsp
    exact hsp.elim

/-- **C51**: polling the asynchronous stream of blocks. -/
theorem C51_poll_next (ds : List Document) (m : OMap Document) (hs : Stored ds m) (a : AReader) (p : Nat) (h : AAt ds a p)
    (o : Option (Bool × Option Bytes)) (a' : AReader) (hp : PollNext m a o a') :
    (o = some (true, none) ∧ p = (ds.flatMap payload).length ∧ AAt ds a' p) ∨
    (o = some (false, none) ∧ AAt ds a' p) ∨
    ∃ b, o = some (true, some b) ∧ b <+: (ds.flatMap payload).drop p ∧ AAt ds a' (p + b.length) := by
  have hpre : ∀ {r : Reader} {p : Nat}, At ds r p → r.cur < ds.length →
      (((ds.map payload).drop r.cur).headD []).drop r.off <+: (ds.flatMap payload).drop p := by
    intro r p h hc
    rw [← flatten_payload, h.pos, flatten_drop_pos]
    cases hd : (ds.map payload).drop r.cur with
    | nil => rw [List.drop_eq_nil_iff, List.length_map] at hd; omega
    | cons c rest =>
      have := h.off
      rw [hd, List.headD_cons] at this
      rw [List.headD_cons, List.flatten_cons, List.drop_append_of_le_length this]
      exact List.prefix_append _ _
  have hnone : ∀ {r : Reader}, r.loaded = [] → r.nbBlock = if r.atBlock then .need r else .eof r := by
    intro r hl
    unfold Reader.nbBlock
    rw [hl]
  induction hp with
  | eof hx =>
    have hsp := nbBlock_spec h.at_
    rw [hx] at hsp
    obtain ⟨h1, h2, h3, h4⟩ := hsp
    refine .inl ⟨rfl, pos_end h.at_.toPos (by simp; omega), h4, ?_⟩
    intro ids hq
    have hl := (h.requested ids hq).1
    rw [hnone hl] at hx
    split at hx
    · cases hx
    · cases hx; exact h.requested ids hq
  | block hx =>
    have hsp := nbBlock_spec h.at_
    rw [hx] at hsp
    obtain ⟨h1, h2, h3, h4, h5⟩ := hsp
    refine .inr (.inr ⟨_, rfl, by rw [h2]; exact hpre h.at_ h1, h5, ?_⟩)
    intro ids hq
    have hl := (h.requested ids hq).1
    rw [hnone hl] at hx
    split at hx <;> cases hx
  | request hx hq _ ih =>
    have hsp := nbBlock_spec h.at_
    rw [hx] at hsp
    obtain ⟨h1, h2, h3, h4⟩ := hsp
    exact ih ⟨⟨⟨h4.cur, h4.off, h4.pos, 0, 0, rfl⟩, h4.blocks⟩, fun ids e => by
      cases e
      exact ⟨rfl, nextBlocks_eq h4.blocks⟩⟩
  | receive hx hq _ ih =>
    obtain ⟨hl, k, hk, e⟩ := h.requested _ hq
    rw [hnone hl] at hx
    split at hx
    · cases hx
      refine ih ⟨⟨⟨h.at_.cur, h.at_.off, h.at_.pos, ?_⟩, h.at_.blocks⟩, fun _ h => (by cases h)⟩
      rw [hl, List.nil_append, e, loadDocs_eq hs]
      exact ⟨_, _, rfl⟩
    · cases hx
  | pending hx hq =>
    obtain ⟨hl, -⟩ := h.requested _ hq
    rw [hnone hl] at hx
    split at hx
    · cases hx; exact .inr (.inl ⟨rfl, h⟩)
    · cases hx
  | panic hx =>
    have hsp := nbBlock_spec h.at_
    rw [hx] at hsp
    exact hsp.elim

/-- **C51**: the position reported by an asynchronous seek is the position. -/
theorem C51_poll_complete (ds : List Document) (r : Reader) (p : Nat) (h : At ds r p) : r.pollComplete = p := by
  unfold Reader.pollComplete
  split
  · rename_i hb
    have hds : ds = [] := by
      have := infosOf_length ds
      rw [← h.blocks, hb] at this
      exact List.length_eq_zero_iff.mp this.symm
    subst hds
    have h1 := h.pos
    have h2 := h.off
    simp at h1 h2
    omega
  · split
    · exact h.offset ‹_›
    · rename_i hx
      rw [h.reader_len]
      rw [List.getElem?_eq_none_iff, h.blocks, infosOf_length] at hx
      have := pos_end h.toPos (by simp; omega)
      rw [flatten_payload] at this
      exact this.symm

/-! ## Violations -/

theorem drain_zero {r : Reader} : ∀ (cs : List Bytes) (off cur : Nat), off ≤ (cs.headD []).length →
    r.drain 0 (number cur cs) off cur =
      (let r' : Reader := { r with loaded := [], off := if cs = [] then off else 0, cur := cur + cs.length }
       if r'.atBlock then .need r' else .eof r')
  | [], off, cur, _ => rfl
  | c :: cs, off, cur, h => by
    rw [List.headD_cons] at h
    simp only [number, Reader.drain, Nat.zero_min, Nat.lt_irrefl, ↓reduceIte]
    rw [if_neg (by omega), drain_zero cs 0 (cur + 1) (Nat.zero_le _)]
    simp only [List.length_cons, reduceCtorEq, ↓reduceIte]
    have : cur + 1 + cs.length = cur + (cs.length + 1) := by omega
    rw [this]
    split <;> rfl

/-- **C51** is violated by reads with an empty buffer: they move to the end of the file. -/
theorem C51_violated_empty_read (ds : List Document) (m : OMap Document) (hs : Stored ds m) (r : Reader) (p : Nat)
    (h : At ds r p) : ∃ r', Read m 0 r (some []) r' ∧ At ds r' (ds.flatMap payload).length := by
  have step : ∀ (fuel : Nat) (r : Reader), r.blocks = infosOf ds → r.cur ≤ ds.length →
      r.off ≤ (((ds.map payload).drop r.cur).headD []).length → ds.length - r.cur ≤ fuel → r.cur < ds.length →
      ∃ r', Read m 0 (r.load m) (some []) r' ∧ At ds r' (ds.flatMap payload).length := by
    intro fuel
    induction fuel with
    | zero => intro r _ _ _ hf hc; omega
    | succ fuel ih =>
      intro r hb hcl ho hf hc
      obtain ⟨k, hk, hl⟩ := load_eq hs hb
      have hx : (r.load m).nbRead 0 = (r.load m).drain 0 (r.load m).loaded (r.load m).off (r.load m).cur :=
        nbRead_loaded hk (cs := ds.map payload) (by rw [hl]; simpa using hc) (by rw [hl])
      rw [show (r.load m).loaded = number r.cur (((ds.map payload).drop r.cur).take k) by rw [hl],
        show (r.load m).off = r.off from rfl, show (r.load m).cur = r.cur from rfl] at hx
      have hne : ((ds.map payload).drop r.cur).take k ≠ [] := by
        intro he
        rcases List.take_eq_nil_iff.mp he with h | h
        · exact hk h
        · rw [List.drop_eq_nil_iff, List.length_map] at h; omega
      have hhead : (((ds.map payload).drop r.cur).take k).headD [] = ((ds.map payload).drop r.cur).headD [] := by
        cases k with
        | zero => exact absurd rfl hk
        | succ k => cases (ds.map payload).drop r.cur <;> rfl
      rw [drain_zero _ _ _ (by rw [hhead]; exact ho), if_neg hne] at hx
      simp only [atBlock_eq] at hx
      have hbl : (r.load m).blocks.length = ds.length := by
        rw [show (r.load m).blocks = r.blocks from rfl, hb, infosOf_length]
      have hlen := List.length_take (l := (ds.map payload).drop r.cur) (i := k)
      rw [List.length_drop, List.length_map] at hlen
      rw [hbl] at hx
      by_cases hlt : r.cur + (((ds.map payload).drop r.cur).take k).length < ds.length
      · rw [if_pos (by simpa using hlt)] at hx
        obtain ⟨r', hr, hA⟩ := ih { r.load m with loaded := [], off := 0, cur := r.cur + (((ds.map payload).drop r.cur).take k).length }
          hb (by simp only; omega) (Nat.zero_le _) (by simp only; omega) hlt
        exact ⟨r', .load hx hr, hA⟩
      · rw [if_neg (by simpa using hlt)] at hx
        have e : r.cur + (((ds.map payload).drop r.cur).take k).length = ds.length := by omega
        rw [e] at hx
        refine ⟨_, .eof hx, ⟨by simp, Nat.zero_le _, ?_, 0, 0, rfl⟩, hb⟩
        show _ = ((ds.map payload).take ds.length).flatten.length + 0
        rw [List.take_of_length_le (by simp), flatten_payload]; rfl
  have hcl : r.cur ≤ ds.length := by simpa using h.cur
  have hbl : r.blocks.length = ds.length := by rw [h.blocks, infosOf_length]
  have base : r.nbRead 0 = (if r.atBlock then .need r else .eof r) →
      ∃ r', Read m 0 r (some []) r' ∧ At ds r' (ds.flatMap payload).length := by
    intro hx
    rw [atBlock_eq, hbl] at hx
    by_cases hc : r.cur < ds.length
    · rw [if_pos (by simpa using hc)] at hx
      obtain ⟨r', hr, hA⟩ := step _ r h.blocks hcl h.off (Nat.le_refl _) hc
      exact ⟨r', .load hx hr, hA⟩
    · rw [if_neg (by simpa using hc)] at hx
      have := pos_end h.toPos (by simp; omega)
      rw [flatten_payload] at this
      rw [this] at h
      exact ⟨r, .eof hx, h⟩
  obtain ⟨a, k, hld⟩ := h.loaded
  cases hlo : r.loaded with
  | nil => exact base (by unfold Reader.nbRead; rw [hlo])
  | cons x l =>
    obtain ⟨i, c⟩ := x
    by_cases hi : i = r.cur
    · have hld' := hld
      rw [hlo] at hld'
      have ha : a = r.cur := by
        have := (number_eq_cons hld').1
        omega
      rw [ha] at hld
      have hk : k ≠ 0 := by
        rintro rfl
        rw [hlo, List.take_zero] at hld
        cases hld
      have hc : r.cur < ds.length := by
        rcases Nat.lt_or_ge r.cur ds.length with h | h
        · exact h
        · rw [List.drop_eq_nil_of_le (by simpa using h), List.take_nil, hlo] at hld
          cases hld
      have hx := nbRead_loaded (n := 0) hk (cs := ds.map payload) (by simpa using hc) hld
      rw [hld] at hx
      have hne : ((ds.map payload).drop r.cur).take k ≠ [] := by
        intro he
        rcases List.take_eq_nil_iff.mp he with h | h
        · exact hk h
        · rw [List.drop_eq_nil_iff, List.length_map] at h; omega
      have hhead : (((ds.map payload).drop r.cur).take k).headD [] = ((ds.map payload).drop r.cur).headD [] := by
        cases k with
        | zero => exact absurd rfl hk
        | succ k => cases (ds.map payload).drop r.cur <;> rfl
      rw [drain_zero _ _ _ (by rw [hhead]; exact h.off), if_neg hne] at hx
      simp only [atBlock_eq] at hx
      have hlen := List.length_take (l := (ds.map payload).drop r.cur) (i := k)
      rw [List.length_drop, List.length_map] at hlen
      rw [hbl] at hx
      by_cases hlt : r.cur + (((ds.map payload).drop r.cur).take k).length < ds.length
      · rw [if_pos (by simpa using hlt)] at hx
        obtain ⟨r', hr, hA⟩ := step _ { r with loaded := [], off := 0, cur := r.cur + (((ds.map payload).drop r.cur).take k).length }
          h.blocks (by simp only; omega) (Nat.zero_le _) (Nat.le_refl _) hlt
        exact ⟨r', .load hx hr, hA⟩
      · rw [if_neg (by simpa using hlt)] at hx
        have e : r.cur + (((ds.map payload).drop r.cur).take k).length = ds.length := by omega
        rw [e] at hx
        refine ⟨_, .eof hx, ⟨by simp, Nat.zero_le _, ?_, 0, 0, rfl⟩, h.blocks⟩
        show _ = ((ds.map payload).take ds.length).flatten.length + 0
        rw [List.take_of_length_le (by simp), flatten_payload]; rfl
    · exact base (by unfold Reader.nbRead; rw [hlo]; simp only [if_pos hi, ne_eq, hi, not_false_eq_true, ↓reduceIte])

/-- **C51** is violated: for every file that is not empty there is a use of the reader (iterating to the end) after
which every relative seek panics, `stream_position` included. -/
theorem C51_violated_seek_after_end (cfg : Cfg) (ds : List Document) (m : OMap Document) (hs : Stored ds m) (hd : ds ≠ []) :
    ∃ es r, Session ds (Reader.new cfg (infosOf ds)) es r ∧ ∀ d, r.seek (.current d) = none := by
  have hA : At ds (Reader.new cfg (infosOf ds)) 0 := ⟨⟨Nat.zero_le _, Nat.zero_le _, rfl, 0, 0, rfl⟩, rfl⟩
  have key : ∀ (fuel : Nat) (r : Reader) (p : Nat), At ds r p → ds.length - r.cur ≤ fuel →
      ∃ es r' p', Session ds r es r' ∧ At ds r' p' ∧ r'.cur = ds.length := by
    intro fuel
    induction fuel with
    | zero =>
      intro r p h hf
      have hcl : r.cur ≤ ds.length := by simpa using h.cur
      exact ⟨[], r, p, .nil r, h, by omega⟩
    | succ fuel ih =>
      intro r p h hf
      have hcl : r.cur ≤ ds.length := by simpa using h.cur
      rcases Nat.lt_or_eq_of_le hcl with hc | hc
      · obtain ⟨r', hr, h1, h2, h3⟩ := (next_exact hs h).1 hc
        obtain ⟨es, r'', p'', hS, hA', hc'⟩ := ih r' _ h3 (by omega)
        exact ⟨_, r'', p'', .next hs hr hS, hA', hc'⟩
      · exact ⟨[], r, p, .nil r, h, hc⟩
  obtain ⟨es, r, p, hS, hA', hc⟩ := key _ _ _ hA (Nat.le_refl _)
  refine ⟨es, r, hS, fun d => ?_⟩
  have e1 : r.seek (.current d) = if r.blocks = [] then some (0, r) else (r.seekTo (.current d)).bind r.moveTo := rfl
  have hb : r.blocks.length = ds.length := by rw [hA'.blocks, infosOf_length]
  have hl : 0 < ds.length := List.length_pos_iff.mpr hd
  rw [e1, if_neg (by intro e; rw [e] at hb; simp at hb; omega)]
  simp only [Reader.seekTo]
  rw [List.getElem?_eq_none (by omega)]
  rfl

/-- **C51** is violated: seeking before the start panics (std documents an error). -/
theorem C51_violated_seek_before_start (ds : List Document) (r : Reader) (p : Nat) (h : At ds r p) (e : Int)
    (he : e < 0) (hl : (ds.flatMap payload).length < e.natAbs) : r.seek (.fromEnd e) = none := by
  have e1 : r.seek (.fromEnd e) = (r.seekTo (.fromEnd e)).bind r.moveTo := rfl
  rw [e1]
  simp only [Reader.seekTo, h.reader_len]
  rw [if_pos he, if_neg (by omega)]
  rfl

/-- **C51** is violated: if the blocks of an open file are deleted, reading never returns. -/
theorem C51_violated_hang (cfg : Cfg) (ds : List Document) (hd : ds ≠ []) (m : OMap Document)
    (hm : ∀ d ∈ ds, m.get d.header.id = none) (n : Nat) (o : Option Bytes) (r' : Reader) :
    ¬ Read m n (Reader.new cfg (infosOf ds)) o r' := by
  have hl : 0 < ds.length := List.length_pos_iff.mpr hd
  have key : ∀ {r : Reader}, Read m n r o r' → r.blocks = infosOf ds → r.loaded = [] → r.cur = 0 → False := by
    intro r h
    induction h with
    | bytes hx =>
      intro _ hl _
      rw [nbRead_requested (a := ⟨_, none⟩) hl] at hx
      split at hx <;> cases hx
    | eof hx =>
      intro hb hl0 hc
      rw [nbRead_requested (a := ⟨_, none⟩) hl0, atBlock_eq, hb, infosOf_length, hc] at hx
      simp only [decide_eq_true_eq] at hx
      rw [if_pos hl] at hx
      cases hx
    | panic hx =>
      intro _ hl _
      rw [nbRead_requested (a := ⟨_, none⟩) hl] at hx
      split at hx <;> cases hx
    | load hx _ ih =>
      intro hb hl0 hc
      rw [nbRead_requested (a := ⟨_, none⟩) hl0] at hx
      split at hx
      · cases hx
        refine ih hb ?_ hc
        obtain ⟨k, -, e⟩ := nextBlocks_eq hb
        show number _ (loadDocs m _) = []
        rw [e]
        unfold loadDocs
        have : ∀ j, getMultiple m (sortKeys (((ds.drop j).take k).map fun d => d.header.id)) = [] := by
          intro j
          rw [List.eq_nil_iff_forall_not_mem]
          rintro ⟨key, d⟩ hmem
          obtain ⟨h1, h2⟩ := mem_getMultiple.mp hmem
          obtain ⟨x, hx1, hx2⟩ := List.mem_map.mp ((sortKeys_perm _).mem_iff.mp h1)
          have := hm x (List.drop_subset _ _ (List.take_subset _ _ hx1))
          rw [← hx2, this] at h2
          cases h2
        rw [this]
        rfl
      · cases hx
  intro h
  exact key h rfl rfl rfl

end Bonsai.Files
