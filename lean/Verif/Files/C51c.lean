import Verif.Files.C51b

/-!
# C51: asynchronous reads to the end, concurrent deletion, cancelled reads
-/
set_option linter.unusedSimpArgs false
set_option linter.unusedSectionVars false

namespace Bonsai.Files
open Bonsai Bonsai.Names Bonsai.Store Bonsai.Query

/-- A poll can always become ready: when the loading task answers the requests of this poll at once. -/
theorem poll_ready {ds : List Document} {m : OMap Document} (hs : Stored ds m) : ∀ (n : Nat), 0 < n →
    ∀ (a : AReader) (p : Nat), AAt ds a p → ∃ b a', Poll m n a (some (true, b)) a' := by
  intro n
  induction n using Nat.strongRecOn with
  | ind n ihn =>
  intro hn
  -- what to do with the result of a round that was not `need`
  have fin : ∀ (a : AReader) (p : Nat), AAt ds a p →
      (∀ r', a.r.nbRead n = .need r' → ∃ b a', Poll m n a (some (true, b)) a') → ∃ b a', Poll m n a (some (true, b)) a' := by
    intro a p h hneed
    have hsp := nbRead_spec hn h.at_.len h.at_.toPos
    cases hx : a.r.nbRead n with
    | need r' => exact hneed r' hx
    | eof r' => exact ⟨[], _, .eof hx⟩
    | panic => rw [hx] at hsp; exact hsp.elim
    | bytes b r' =>
      rw [hx] at hsp
      obtain ⟨h1, h2, h3, h4, h5⟩ := hsp
      have hbl := List.length_pos_iff.mpr h1
      by_cases hb : n - b.length = 0
      · exact ⟨b, _, .full hx hb⟩
      · have hA : AAt ds { a with r := r' } (p + b.length) := ⟨⟨h4, by rw [h5, h.at_.blocks]⟩, fun ids hq => by
          obtain ⟨hl, -⟩ := h.requested ids hq
          rw [nbRead_requested hl] at hx
          split at hx <;> cases hx⟩
        obtain ⟨b', a', hp⟩ := ihn (n - b.length) (by omega) (by omega) _ _ hA
        exact ⟨b ++ b', a', .more hx (by omega) hp⟩
  have inner : ∀ (fuel : Nat) (a : AReader) (p : Nat), AAt ds a p → ds.length - a.r.cur ≤ fuel →
      ∃ b a', Poll m n a (some (true, b)) a' := by
    intro fuel
    induction fuel with
    | zero =>
      intro a p h hf
      refine fin a p h fun r' hx => ?_
      have hsp := nbRead_spec hn h.at_.len h.at_.toPos
      rw [hx] at hsp
      have h1 := hsp.1
      have h2 := hsp.2.1
      rw [List.length_map] at h2
      omega
    | succ fuel ih =>
      -- after the blocks were received
      have loaded : ∀ (r : Reader) (p k : Nat), k ≠ 0 → At ds r p → r.cur < ds.length →
          r.loaded = number r.cur (((ds.map payload).drop r.cur).take k) → ds.length - r.cur ≤ fuel + 1 →
          ∃ b a', Poll m n ⟨r, none⟩ (some (true, b)) a' := by
        intro r p k hk h hc hl hf
        have hA : AAt ds ⟨r, none⟩ p := ⟨h, fun _ h => (by cases h)⟩
        refine fin _ p hA fun r' hx => ?_
        have hx' := hx
        rw [nbRead_loaded (cs := ds.map payload) hk (by simpa using hc) hl] at hx'
        have hsp := drain_spec hn (r := r) (cs := ds.map payload) h.len k r.cur r.off h.cur h.off
        rw [← hl, hx', ← h.pos, if_neg hk, List.length_map] at hsp
        obtain ⟨g1, g2, g3, g4⟩ := hsp
        have g5 := drain_cur_loaded hx'
        rw [List.length_map] at g2
        have hb := g4.trans h.blocks
        obtain ⟨b, a', hp⟩ := ih ⟨{ r' with loaded := [] }, some r'.nextBlocks⟩ p
          ⟨⟨⟨g3.cur, g3.off, g3.pos, 0, 0, rfl⟩, hb⟩, fun ids e => by cases e; exact ⟨rfl, nextBlocks_eq hb⟩⟩
          (by simp only; omega)
        exact ⟨b, a', .request hx rfl hp⟩
      -- while the blocks are requested
      have waiting : ∀ (a : AReader) (p : Nat) (ids : List Bytes), AAt ds a p → a.requested = some ids → a.r.cur < ds.length →
          ds.length - a.r.cur ≤ fuel + 1 → ∃ b a', Poll m n a (some (true, b)) a' := by
        intro a p ids h hq hc hf
        obtain ⟨hl, k, hk, e⟩ := h.requested ids hq
        have hx : a.r.nbRead n = .need a.r := by
          rw [nbRead_requested hl, atBlock_eq, h.at_.blocks, infosOf_length, if_pos (by simpa using hc)]
        have hA := receive_at hs h hq hx
        have hld : a.r.loaded ++ number a.r.cur (loadDocs m ids) = number a.r.cur (((ds.map payload).drop a.r.cur).take k) := by
          rw [hl, List.nil_append, e, loadDocs_eq hs]
        obtain ⟨b, a', hp⟩ := loaded { a.r with loaded := a.r.loaded ++ number a.r.cur (loadDocs m ids) } p k hk hA.at_ hc hld hf
        exact ⟨b, a', .receive hx hq hp⟩
      intro a p h hf
      refine fin a p h fun r' hx => ?_
      have hsp := nbRead_spec hn h.at_.len h.at_.toPos
      rw [hx] at hsp
      obtain ⟨g1, g2, g3, g4⟩ := hsp
      rw [List.length_map] at g2
      have hb := g4.trans h.at_.blocks
      cases hq : a.requested with
      | some ids =>
        have hc : a.r.cur < ds.length := by
          obtain ⟨hl, -⟩ := h.requested ids hq
          rw [nbRead_requested hl] at hx
          split at hx
          · cases hx; exact g2
          · cases hx
        exact waiting a p ids h hq hc hf
      | none =>
        obtain ⟨b, a', hp⟩ := waiting ⟨{ r' with loaded := [] }, some r'.nextBlocks⟩ p r'.nextBlocks
          ⟨⟨⟨g3.cur, g3.off, g3.pos, 0, 0, rfl⟩, hb⟩, fun ids e => by cases e; exact ⟨rfl, nextBlocks_eq hb⟩⟩ rfl g2
          (by simp only; omega)
        exact ⟨b, a', .request hx hq hp⟩
  intro a p h
  exact inner _ a p h (Nat.le_refl _)

/-- `AsyncReadExt::read_exact` (tokio): polls until `n` bytes are there, keeping what pending polls have put into
the buffer; a ready poll without bytes is an error (`none`). -/
inductive ReadExact (m : OMap Document) : Nat → AReader → Option Bytes → AReader → Prop
  | done (a) : ReadExact m 0 a (some []) a
  | poll {n a ready b a₁ o a₂} (hn : 0 < n) (hp : Poll m n a (some (ready, b)) a₁) (hb : ready = true → b ≠ [])
      (h : ReadExact m (n - b.length) a₁ o a₂) : ReadExact m n a (o.map (b ++ ·)) a₂
  | eof {n a a₁} (hn : 0 < n) (hp : Poll m n a (some (true, [])) a₁) : ReadExact m n a none a₁

/-- `into_vec` of the asynchronous reader, direct.rs:790-795. -/
def IntoVec (m : OMap Document) (a : AReader) (o : Option Bytes) : Prop := ∃ a', ReadExact m a.r.len a o a'

theorem readExact_spec {ds : List Document} {m : OMap Document} (hs : Stored ds m) {n : Nat} {a a' : AReader}
    {o : Option Bytes} (hr : ReadExact m n a o a') : ∀ p, AAt ds a p →
    o = if n ≤ ((ds.flatMap payload).drop p).length then some (((ds.flatMap payload).drop p).take n) else none := by
  induction hr with
  | done => intro p h; simp
  | poll hn hp hb _ ih =>
    intro p h
    obtain ⟨ready, b, e, h1, h2, h3, -⟩ := C51_poll_read ds m hs _ p h _ hn _ _ hp
    cases e
    rw [ih _ h3]
    obtain ⟨t, ht⟩ := h2
    have hd : ∀ (b : Bytes), b ++ t = (ds.flatMap payload).drop p → (ds.flatMap payload).drop (p + b.length) = t := by
      intro b ht
      rw [← List.drop_drop, ← ht, List.drop_left]
    rw [hd _ ht, ← ht, List.length_append]
    split
    · rw [if_pos (by omega), Option.map_some, List.take_append, List.take_of_length_le h1]
    · rw [if_neg (by omega)]; rfl
  | eof hn hp =>
    intro p h
    obtain ⟨ready, b, e, h1, h2, h3, h4⟩ := C51_poll_read ds m hs _ p h _ hn _ _ hp
    cases e
    have h4 := congrArg List.length (h4 rfl)
    rw [List.length_take] at h4
    simp only [List.length_nil] at h4
    rw [if_neg (by omega)]

theorem At.le {ds : List Document} {r : Reader} {p : Nat} (h : At ds r p) : p ≤ (ds.flatMap payload).length := by
  have h1 := h.pos
  have h2 := h.off
  have e : (ds.map payload).flatten = ((ds.map payload).take r.cur).flatten ++ ((ds.map payload).drop r.cur).flatten := by
    rw [← List.flatten_append, List.take_append_drop]
  rw [← flatten_payload, e, List.length_append]
  cases hd : (ds.map payload).drop r.cur with
  | nil => rw [hd] at h2; simp at h2; omega
  | cons c rest => rw [hd, List.headD_cons] at h2; rw [List.flatten_cons, List.length_append]; omega

/-- **C51**: `into_vec` of an asynchronous reader returns the whole file if nothing has been read.  Missing: after a
partial read it should return the remaining bytes. -/
theorem C51_async_into_vec_partial (ds : List Document) (m : OMap Document) (hs : Stored ds m) (a : AReader)
    (h : AAt ds a 0) : IntoVec m a (some (ds.flatMap payload)) ∧ ∀ o, IntoVec m a o → o = some (ds.flatMap payload) := by
  have hl := h.at_.reader_len
  refine ⟨?_, fun o ho => ?_⟩
  · unfold IntoVec
    rw [hl]
    by_cases he : ds.flatMap payload = []
    · rw [he]; exact ⟨a, .done a⟩
    · have hpos := List.length_pos_iff.mpr he
      obtain ⟨b, a', hp⟩ := poll_ready hs _ hpos a 0 h
      obtain ⟨ready, b', e, h1, h2, h3, h4⟩ := C51_poll_read ds m hs _ 0 h _ hpos _ _ hp
      cases e
      have h4 := h4 rfl
      rw [List.drop_zero, List.take_length] at h4
      subst h4
      refine ⟨a', ?_⟩
      have := ReadExact.poll hpos hp (fun _ => he) (by rw [Nat.sub_self]; exact .done a')
      simpa using this
  · obtain ⟨a', hr⟩ := ho
    rw [readExact_spec hs hr 0 h, hl, List.drop_zero, if_pos (Nat.le_refl _), List.take_length]

/-- **C51** is violated: after a partial read, `into_vec` (documented to return the remaining bytes) of an
asynchronous reader never succeeds. -/
theorem C51_violated_async_into_vec (ds : List Document) (m : OMap Document) (hs : Stored ds m) (a : AReader) (p : Nat)
    (hp : 0 < p) (h : AAt ds a p) (o : Option Bytes) (ho : IntoVec m a o) : o = none := by
  obtain ⟨a', hr⟩ := ho
  have hle := h.at_.le
  rw [readExact_spec hs hr p h, h.at_.reader_len, if_neg]
  rw [List.length_drop]
  omega

/-! ## Two blocks -/

section
variable (cfg : Cfg) (a b : Document) (m : OMap Document)

theorem infos_two : infosOf [a, b] =
    [⟨a.header, 0, (payload a).length, some (stamp a)⟩, ⟨b.header, (payload a).length, (payload b).length, some (stamp b)⟩] := by
  simp [infosOf, setOffsets, infoOfDoc]

/-- The reader of a file of two blocks. -/
def twoReader (loaded : List (Nat × Bytes)) (cur off size : Nat) : Reader :=
  ⟨infosOf [a, b], loaded, cur, off, size⟩

theorem two_ids (hlt : a.header.id < b.header.id) : sortKeys [a.header.id, b.header.id] = [a.header.id, b.header.id] :=
  sortKeys_of_sorted (by simpa using hlt)

theorem two_atBlock (loaded : List (Nat × Bytes)) (cur off size : Nat) :
    (twoReader a b loaded cur off size).atBlock = decide (cur < 2) := by
  rw [atBlock_eq]
  show decide (cur < (infosOf [a, b]).length) = _
  rw [infosOf_length]
  rfl

theorem two_need (n cur off size : Nat) (hc : cur < 2) :
    (twoReader a b [] cur off size).nbRead n = .need (twoReader a b [] cur off size) := by
  unfold Reader.nbRead
  simp only [two_atBlock, hc, decide_true, ↓reduceIte]
  rfl

/-- Reading a whole block. -/
theorem two_bytes (n cur size : Nat) (c : Bytes) (l : List (Nat × Bytes)) (hc : c ≠ []) (hn : c.length ≤ n) :
    (twoReader a b ((cur, c) :: l) cur 0 size).nbRead n = .bytes c (twoReader a b ((cur, c) :: l) cur c.length size) := by
  have hpos := List.length_pos_iff.mpr hc
  have hmin : min n c.length = c.length := Nat.min_eq_right hn
  unfold Reader.nbRead
  simp [twoReader, Reader.drain, hmin, hpos]

/-- Leaving a block. -/
theorem two_leave (n cur size : Nat) (c : Bytes) :
    (twoReader a b [(cur, c)] cur c.length size).nbRead n =
      if cur + 1 < 2 then .need (twoReader a b [] (cur + 1) 0 size) else .eof (twoReader a b [] (cur + 1) 0 size) := by
  unfold Reader.nbRead
  have h := two_atBlock a b [] (cur + 1) 0 size
  simp only [twoReader] at h
  simp [twoReader, Reader.drain, h]

/-- **C51** is violated: the first of two blocks of a file is deleted (another handle truncates the file) while the
reader has not read yet.  The reader returns the second block twice: neither the old nor the new contents. -/
theorem C51_violated_deleted_block (hlt : a.header.id < b.header.id) (ha : m.get a.header.id = none)
    (hb : m.get b.header.id = some b) (hsa : (payload a).length ≤ cfg.size)
    (hpb : payload b ≠ []) (hsb : (payload b).length ≤ cfg.size) :
    ∃ r', ReadToEnd m (Reader.new cfg (infosOf [a, b])) (payload b ++ (payload b ++ [])) r' := by
  have hn : 0 < (payload b).length := List.length_pos_iff.mpr hpb
  have hl1 : (twoReader a b [] 0 0 (cfg.size * 10)).load m = twoReader a b [(0, payload b)] 0 0 (cfg.size * 10) := by
    have hf : fits (cfg.size * 10) 0 (infosOf [a, b]) = 2 := by
      rw [infos_two]
      simp only [fits]
      rw [if_neg (by omega), if_neg (by omega)]
    have hnb : (twoReader a b [] 0 0 (cfg.size * 10)).nextBlocks = [a.header.id, b.header.id] := by
      simp only [Reader.nextBlocks, twoReader, List.drop_zero, hf]
      rw [infos_two]
      rfl
    unfold Reader.load
    rw [hnb]
    unfold loadDocs
    rw [two_ids a b hlt]
    simp [getMultiple, ha, hb, number, twoReader]
  have hl2 : ∀ l, ({ twoReader a b l 1 0 (cfg.size * 10) with loaded := [] } : Reader).load m =
      twoReader a b [(1, payload b)] 1 0 (cfg.size * 10) := by
    intro l
    have hnb : ({ twoReader a b l 1 0 (cfg.size * 10) with loaded := [] } : Reader).nextBlocks = [b.header.id] := by
      simp only [Reader.nextBlocks, twoReader]
      rw [infos_two]
      simp only [List.drop_succ_cons, List.drop_zero, fits]
      rw [if_neg (by omega)]
      rfl
    unfold Reader.load
    rw [hnb]
    have : sortKeys [b.header.id] = [b.header.id] := rfl
    unfold loadDocs
    rw [this]
    simp [getMultiple, hb, number, twoReader]
  have s1 : Read m (payload b).length (twoReader a b [] 0 0 (cfg.size * 10)) (some (payload b))
      (twoReader a b [(0, payload b)] 0 (payload b).length (cfg.size * 10)) := by
    refine .load (two_need a b _ 0 0 _ (by omega)) ?_
    rw [hl1]
    exact .bytes (two_bytes a b _ _ _ _ _ hpb (Nat.le_refl _))
  have s2 : Read m (payload b).length (twoReader a b [(0, payload b)] 0 (payload b).length (cfg.size * 10)) (some (payload b))
      (twoReader a b [(1, payload b)] 1 (payload b).length (cfg.size * 10)) := by
    refine .load (r' := twoReader a b [] 1 0 (cfg.size * 10)) (by rw [two_leave]; rfl) ?_
    rw [show (twoReader a b [] 1 0 (cfg.size * 10)).load m = _ from hl2 []]
    exact .bytes (two_bytes a b _ _ _ _ _ hpb (Nat.le_refl _))
  have s3 : Read m (payload b).length (twoReader a b [(1, payload b)] 1 (payload b).length (cfg.size * 10)) (some [])
      (twoReader a b [] 2 0 (cfg.size * 10)) := .eof (by rw [two_leave]; rfl)
  exact ⟨_, .more hn s1 hpb (.more hn s2 hpb (.done hn s3))⟩

variable (ha : m.get a.header.id = some a) (hb : m.get b.header.id = some b)

theorem two_next (loaded : List (Nat × Bytes)) (off : Nat) :
    (twoReader a b loaded 0 off 0).nextBlocks = [a.header.id] ∨ (payload a).length = 0 := by
  by_cases h : (payload a).length = 0
  · exact .inr h
  · refine .inl ?_
    simp only [Reader.nextBlocks, twoReader]
    rw [infos_two]
    simp only [List.drop_zero, fits]
    rw [if_pos (by omega)]
    rfl

include ha in
theorem two_received (cur : Nat) : number cur (loadDocs m [a.header.id]) = [(cur, payload a)] := by
  have : sortKeys [a.header.id] = [a.header.id] := rfl
  unfold loadDocs
  rw [this]
  simp [getMultiple, ha, number]

include ha in
/-- **C51** is violated: a poll that is pending has moved the reader past bytes it has put into the buffer
(`AsyncRead` documents that a pending poll has read nothing; tokio's `read` forgets them). -/
theorem C51_violated_pending (hpa : payload a ≠ []) :
    ∃ a', Poll m ((payload a).length + 1) ⟨twoReader a b [] 0 0 0, none⟩ (some (false, payload a)) a' ∧
      AAt [a, b] ⟨twoReader a b [] 0 0 0, none⟩ 0 ∧ a'.r.pollComplete = (payload a).length := by
  have hnb : (twoReader a b [] 0 0 0).nextBlocks = [a.header.id] := by
    rcases two_next a b [] 0 with h | h
    · exact h
    · exact absurd (List.length_eq_zero_iff.mp h) hpa
  refine ⟨⟨{ twoReader a b [] 1 0 0 with loaded := [] }, some (twoReader a b [] 1 0 0).nextBlocks⟩, ?_, ?_, ?_⟩
  · refine .request (two_need a b _ 0 0 0 (by omega)) rfl ?_
    refine .receive (two_need a b _ 0 0 0 (by omega)) rfl ?_
    have e : (twoReader a b [] 0 0 0).loaded ++ number (twoReader a b [] 0 0 0).cur (loadDocs m (twoReader a b [] 0 0 0).nextBlocks) =
        [(0, payload a)] := by
      rw [hnb]; exact two_received a m ha 0
    rw [e]
    have hx := two_bytes a b ((payload a).length + 1) 0 0 (payload a) [] hpa (by omega)
    have hn1 : (payload a).length + 1 - (payload a).length = 1 := by omega
    have := Poll.more (m := m) (a := ⟨twoReader a b [(0, payload a)] 0 0 0, none⟩) (ready := false) (b' := [])
      (a' := ⟨{ twoReader a b [] 1 0 0 with loaded := [] }, some (twoReader a b [] 1 0 0).nextBlocks⟩) hx (by omega) ?_
    · rw [List.append_nil] at this
      exact this
    rw [hn1]
    refine .request (r' := twoReader a b [] 1 0 0) ?_ rfl ?_
    · show (twoReader a b [(0, payload a)] 0 (payload a).length 0).nbRead 1 = _
      rw [two_leave]; rfl
    · exact .pending (two_need a b _ 1 0 0 (by omega)) rfl
  · exact ⟨⟨⟨Nat.zero_le _, Nat.zero_le _, rfl, 0, 0, rfl⟩, rfl⟩, fun _ h => (by cases h)⟩
  · simp [Reader.pollComplete, twoReader, infos_two]

include ha in
/-- **C51** is violated: an asynchronous read is cancelled while blocks are being loaded, then the reader seeks to
the second block; the next read returns the bytes of the first block. -/
theorem C51_violated_cancelled_read (hpa : payload a ≠ []) (hpb : payload b ≠ []) :
    ∃ a₁ r a₂, Poll m (payload a).length ⟨twoReader a b [] 0 0 0, none⟩ (some (false, [])) a₁ ∧
      a₁.r.seek (.start (payload a).length) = some ((payload a).length, r) ∧
      Poll m (payload a).length { a₁ with r := r } (some (true, payload a)) a₂ := by
  have hnb : (twoReader a b [] 0 0 0).nextBlocks = [a.header.id] := by
    rcases two_next a b [] 0 with h | h
    · exact h
    · exact absurd (List.length_eq_zero_iff.mp h) hpa
  have hlb := List.length_pos_iff.mpr hpb
  refine ⟨⟨twoReader a b [] 0 0 0, some [a.header.id]⟩, twoReader a b [] 1 0 0, ⟨twoReader a b [(1, payload a)] 1 (payload a).length 0, none⟩,
    ?_, ?_, ?_⟩
  · refine .request (two_need a b _ 0 0 0 (by omega)) rfl ?_
    rw [hnb]
    exact .pending (two_need a b _ 0 0 0 (by omega)) rfl
  · have e : (twoReader a b [] 0 0 0).seek (.start (payload a).length) = (twoReader a b [] 0 0 0).moveTo (payload a).length := rfl
    show (twoReader a b [] 0 0 0).seek _ = _
    rw [e]
    simp only [Reader.moveTo, twoReader]
    rw [infos_two]
    simp only [findBlock, Nat.zero_add, gt_iff_lt, Nat.lt_irrefl, ↓reduceIte]
    rw [if_pos (by omega)]
    simp only [Nat.le_refl, ↓reduceIte, Nat.sub_self]
  · refine .receive (two_need a b _ 1 0 0 (by omega)) rfl ?_
    have e : (twoReader a b [] 1 0 0).loaded ++ number (twoReader a b [] 1 0 0).cur (loadDocs m [a.header.id]) =
        [(1, payload a)] := two_received a m ha 1
    rw [e]
    exact .full (two_bytes a b _ 1 0 (payload a) [] hpa (Nat.le_refl _)) (by omega)
end

/-! ## Examples -/

/-- Two blocks of file 1. -/
def exTwo : List Document := [newBlock exFiles (toBE 8 1) [1, 2] 1 0, newBlock exFiles (toBE 8 2) [3] 1 0]

/-- The database holding them. -/
def exTwoDocs : OMap Document := (OMap.empty.set (toBE 8 1) exTwo[0]).set (toBE 8 2) exTwo[1]

theorem exTwo_stored : Stored exTwo exTwoDocs := by
  have hp0 : payload exTwo[0] = [1, 2] := payload_new _ _ _ _ _
  have hp1 : payload exTwo[1] = [3] := payload_new _ _ _ _ _
  constructor
  · intro d hd
    rcases List.mem_cons.mp hd with rfl | hd
    · show (OMap.set _ _ _).get (toBE 8 1) = _
      rw [OMap.get_set_ne _ (by decide), OMap.get_set_self]; rfl
    · rcases List.mem_cons.mp hd with rfl | hd
      · show (OMap.set _ _ _).get (toBE 8 2) = _
        rw [OMap.get_set_self]; rfl
      · cases hd
  · show [_, _].Pairwise _
    rw [List.pairwise_cons]
    refine ⟨?_, List.pairwise_singleton _ _⟩
    intro d hd
    rw [List.mem_singleton] at hd
    subst hd
    show toBE 8 1 < toBE 8 2
    decide
  · intro d hd
    rcases List.mem_cons.mp hd with rfl | hd
    · intro h; rw [payload_new] at h; cases h
    · rcases List.mem_cons.mp hd with rfl | hd
      · intro h; rw [payload_new] at h; cases h
      · cases hd

theorem exTwo_bytes : exTwo.flatMap payload = [1, 2, 3] := by
  have hp0 : payload exTwo[0] = [1, 2] := payload_new _ _ _ _ _
  have hp1 : payload exTwo[1] = [3] := payload_new _ _ _ _ _
  show payload exTwo[0] ++ (payload exTwo[1] ++ []) = _
  rw [hp0, hp1]
  rfl

/-- The hypotheses of `C51_read`, `C51_next`, `C51_seek`, `C51_session` and of the asynchronous theorems are met by a
file of two blocks; reading it returns its three bytes. -/
example : At exTwo (Reader.new exCfg (infosOf exTwo)) 0 ∧ AAt exTwo ⟨Reader.new exCfg (infosOf exTwo), none⟩ 0 ∧
    ∃ r', ReadToEnd exTwoDocs (Reader.new exCfg (infosOf exTwo)) [1, 2, 3] r' := by
  have hA : At exTwo (Reader.new exCfg (infosOf exTwo)) 0 := ⟨⟨Nat.zero_le _, Nat.zero_le _, rfl, 0, 0, rfl⟩, rfl⟩
  refine ⟨hA, ⟨hA, fun _ h => (by cases h)⟩, ?_⟩
  exact (C51_read_to_end exTwo exTwoDocs exTwo_stored _ 0 hA _).mpr (by rw [exTwo_bytes]; rfl)

/-- The hypotheses of `C51_violated_deleted_block` are met: a file of the bytes 1, 2, 3 whose first block was deleted
is read as 3, 3. -/
example : ∃ r', ReadToEnd (OMap.empty.set (toBE 8 2) exTwo[1]) (Reader.new exCfg (infosOf exTwo)) [3, 3] r' := by
  have hp0 : payload exTwo[0] = [1, 2] := payload_new _ _ _ _ _
  have hp1 : payload exTwo[1] = [3] := payload_new _ _ _ _ _
  have := C51_violated_deleted_block exCfg exTwo[0] exTwo[1] (OMap.empty.set (toBE 8 2) exTwo[1])
    (by show toBE 8 1 < toBE 8 2; decide)
    (by show (OMap.set _ _ _).get (toBE 8 1) = _; rw [OMap.get_set_ne _ (by decide)]; rfl)
    (by show (OMap.set _ _ _).get (toBE 8 2) = _; rw [OMap.get_set_self])
    (by rw [hp0]; decide) (by rw [hp1]; simp) (by rw [hp1]; decide)
  rw [hp1] at this
  exact this

/-- A session with a seek that is not trivial: position 1 is inside the first block. -/
example : ∃ es r', Session exTwo (Reader.new exCfg (infosOf exTwo)) es r' ∧ es.length = 2 ∧
    ∃ b, es[1]? = some (.read 5 b) ∧ b <+: [2, 3] ∧ b ≠ [] := by
  have hA : At exTwo (Reader.new exCfg (infosOf exTwo)) 0 := ⟨⟨Nat.zero_le _, Nat.zero_le _, rfl, 0, 0, rfl⟩, rfl⟩
  obtain ⟨q, r₁, hq⟩ := (C51_seek _ _ _ hA (.start 1)).2 (by simp [target]) (by simp [target]) (by intro d h; cases h)
  obtain ⟨h1, h2⟩ := (C51_seek _ _ _ hA (.start 1)).1 _ _ hq
  rw [exTwo_bytes] at h1
  have : q = 1 := by simp [target] at h1; omega
  subst this
  obtain ⟨b, r₂, hu, h3, h4, h5, -⟩ := C51_read exTwo exTwoDocs exTwo_stored r₁ 1 h2 5 (by decide)
  rw [exTwo_bytes] at h4 h5
  exact ⟨_, r₂, .seek hq (.read exTwo_stored (by decide) ((hu _ _).mpr ⟨rfl, rfl⟩) (.nil r₂)), rfl, b, rfl, h4,
    fun hb => absurd (h5 hb) (by decide)⟩

end Bonsai.Files
