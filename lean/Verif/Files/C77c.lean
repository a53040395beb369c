import Verif.Files.C77b

/-!
# C77: what the asynchronous writer violates, and examples
-/
set_option linter.unusedSimpArgs false
set_option linter.unusedSectionVars false

namespace Bonsai.Files
open Bonsai Bonsai.Names Bonsai.Store Bonsai.Query

/-- The file 1 of the example can grow. -/
theorem exFile_grows : CanGrow exCfg 1 exFileDb (2 ^ 32) := by
  refine ⟨exFileDb_file, by decide, fun id hid => ?_⟩
  exact absurd (show getDoc exFileDb exCfg.blocks id = none by
    unfold getDoc
    have h : exFileDb.trees.docs exCfg.blocks = Db.empty.trees.docs exCfg.blocks := apply_frame (by decide) _ _
    rw [h]; rfl) hid

theorem exFile_empty : contents exCfg exFileDb 1 = [] := by
  have h : exFileDb.trees.docs exCfg.blocks = Db.empty.trees.docs exCfg.blocks := apply_frame (by decide) _ _
  unfold contents
  rw [h]
  rfl

/-- Appends to the example: they succeed. -/
theorem exGrow {db : Db} {b : Bytes} {m : Nat} (hwf : BlocksWF exCfg (db.trees.docs exCfg.blocks))
    (hg : CanGrow exCfg 1 db (b.length + m)) : ∃ db', append exFiles exCfg b 1 0 0 db = (.ok (), db') ∧
      CanGrow exCfg 1 db' m ∧ BlocksWF exCfg (db'.trees.docs exCfg.blocks) ∧
      contents exCfg db' 1 = contents exCfg db 1 ++ b := by
  obtain ⟨db', h1, h2, h3⟩ := append_grows exFiles_has (by decide) hwf hg (by decide) 0 0
  exact ⟨db', h1, h2, h3, (C50_append exFiles exCfg exFiles_has (by decide) _ _ hwf _ _ (by decide) _ _ h1).1⟩

theorem exDefault : defaultCapacity exCfg = 1048576 := by decide

theorem exAlloc : Alloc (defaultCapacity exCfg) 1048576 := by
  rw [exDefault]; exact ⟨Nat.le_refl _, fun h => by cases h⟩

/-- A blocking writer: five bytes in two writes, a flush, a write and a drop. -/
theorem exWriter : ∃ w db₁ db₂, WExec exFiles exCfg 1 ⟨some .new, exFileDb⟩
    [.wrote [1, 2, 3] 3, .wrote [4, 5] 2, .flushed, .wrote [6] 1] ⟨some w, db₁⟩ ∧
    CanGrow exCfg 1 db₁ 7 ∧ contents exCfg db₁ 1 = [1, 2, 3, 4, 5] ∧
    WStep exFiles exCfg 1 ⟨some w, db₁⟩ .dropped ⟨none, db₂⟩ ∧ contents exCfg db₂ 1 = [1, 2, 3, 4, 5, 6] := by
  obtain ⟨db₁, ha, hg, hwf, hc⟩ := exGrow (b := [1, 2, 3, 4, 5]) (m := 8) exFileDb_wf
    ⟨exFile_grows.1, by decide, fun id hid => by
      have h1 := exFile_grows.2.2 id hid
      have : ([1, 2, 3, 4, 5] : Bytes).length = 5 := rfl
      omega⟩
  obtain ⟨db₂, ha₂, -, -, hc₂⟩ := exGrow (b := [6]) (m := 7) hwf hg
  rw [exFile_empty] at hc
  refine ⟨⟨1048576, [6]⟩, db₁, db₂, ?_, ⟨hg.1, by decide, fun id hid => by have := hg.2.2 id hid; omega⟩, hc, ?_, ?_⟩
  · have s1 : WStep exFiles exCfg 1 ⟨some .new, exFileDb⟩ (.wrote [1, 2, 3] 3) ⟨some ⟨1048576, [1, 2, 3]⟩, exFileDb⟩ :=
      .write (now := 0) (tid := 0) exAlloc rfl
    have s2 : WStep exFiles exCfg 1 ⟨some ⟨1048576, [1, 2, 3]⟩, exFileDb⟩ (.wrote [4, 5] 2)
        ⟨some ⟨1048576, [1, 2, 3, 4, 5]⟩, exFileDb⟩ := .write (now := 0) (tid := 0) exAlloc rfl
    have s3 : WStep exFiles exCfg 1 ⟨some ⟨1048576, [1, 2, 3, 4, 5]⟩, exFileDb⟩ .flushed ⟨some ⟨1048576, []⟩, db₁⟩ :=
      .flush (now := 0) (tid := 0) (by unfold Buffered.flush; rw [ha])
    have s4 : WStep exFiles exCfg 1 ⟨some ⟨1048576, []⟩, db₁⟩ (.wrote [6] 1) ⟨some ⟨1048576, [6]⟩, db₁⟩ :=
      .write (now := 0) (tid := 0) exAlloc rfl
    exact .snoc (.snoc (.snoc (.snoc (.nil _) s1) s2) s3) s4
  · exact .drop (now := 0) (tid := 0) (w := ⟨1048576, [6]⟩) (by unfold Buffered.flush; rw [ha₂])
  · rw [hc₂, hc]; rfl

/-- The hypotheses of the theorems about blocking writers are met. -/
example : ∃ es w db₁ σ, WExec exFiles exCfg 1 ⟨some .new, exFileDb⟩ es ⟨some w, db₁⟩ ∧
    accepted es = [1, 2, 3, 4, 5, 6] ∧ unflushed es = [6] ∧ envOps es = [] ∧
    CanGrow exCfg 1 db₁ ((unflushed es).length + 6) ∧ WStep exFiles exCfg 1 ⟨some w, db₁⟩ .dropped σ := by
  obtain ⟨w, db₁, db₂, h1, h2, -, h3, -⟩ := exWriter
  exact ⟨_, w, db₁, _, h1, rfl, rfl, rfl, h2, h3⟩

/-- Futures that do not complete at once, and whose completion is noticed. -/
def later : Sched := ⟨none, true⟩

theorem exAAlloc {w : ABuffered} (h : w.cap = 0 ∨ w.cap = 1048576) : WriteAlloc exCfg w 1048576 1048576 := by
  refine ⟨exAlloc, ?_⟩
  split <;> exact ⟨by omega, fun _ => by omega⟩

/-- The first `write` of an asynchronous writer. -/
theorem exAWrite {K : Sched → Prop} (hk : K later) : AStep exFiles exCfg 1 K ⟨some .new, [], exFileDb⟩ (.wrote [5, 6] 2)
    ⟨some ⟨1048576, [5, 6], none⟩, [], exFileDb⟩ :=
  .write (k := later) hk (exAAlloc (.inl rfl)) rfl

/-- **C77 is violated** (asynchronous) when the append of a flush completes within its first poll: the flush
succeeds, and the next call panics, whether it writes or flushes. -/
theorem C77_violated_async_panic : ∃ es σ σ', AExec exFiles exCfg 1 Any ⟨some .new, [], exFileDb⟩ es σ ∧
    es = [.wrote [5, 6] 2, .flushed] ∧ contents exCfg σ.db 1 = [5, 6] ∧
    AStep exFiles exCfg 1 Any σ .panicked σ' ∧
    ∀ data n σ'', ¬ AStep exFiles exCfg 1 Any σ (.wrote data n) σ'' := by
  obtain ⟨db₁, ha, -, -, hc⟩ := exGrow (b := [5, 6]) (m := 0) exFileDb_wf
    ⟨exFile_grows.1, by decide, fun id hid => by
      have h1 := exFile_grows.2.2 id hid
      have : ([5, 6] : Bytes).length = 2 := rfl
      omega⟩
  rw [exFile_empty] at hc
  refine ⟨_, ⟨some ⟨1048576, [], some .finished⟩, [], db₁⟩, ⟨some ⟨1048576, [], some .finished⟩, [], db₁⟩,
    .snoc (.snoc (.nil _) (exAWrite trivial)) ?_, rfl, hc, ?_, ?_⟩
  · refine .flush (k := ⟨some (0, 0), true⟩) trivial (c := 1048576) ⟨Nat.le_refl _, id⟩ ?_
    have ha0 : append exFiles exCfg [5, 6] 1 0#64 0 exFileDb = (.ok (), db₁) := ha
    simp [ABuffered.pollFlush, ha0]
  · exact .writePanics (k := later) (data := [7]) trivial (exAAlloc (.inr rfl)) rfl
  · intro data n σ'' h
    cases h with
    | write hk hc h => cases h

/-- The file 1 of the example, deleted by another client. -/
def exDeletedDb : Db := (applyToRoots exFiles exFileDb 7 [⟨exCfg.files, .delete ⟨toBE 4 1, ⟨0, [7]⟩⟩⟩]).2

theorem exDeleted_none : getDoc exDeletedDb exCfg.files (toBE 4 1) = none := by decide

theorem exDeleted_blocks : exDeletedDb.trees.docs exCfg.blocks = exFileDb.trees.docs exCfg.blocks :=
  apply_frame (by decide) _ _

theorem exDeleted_append (b : Bytes) (hb : b ≠ []) :
    append exFiles exCfg b 1 0 0 exDeletedDb = (.error (.notFound exCfg.files (toBE 4 1)), exDeletedDb) := by
  have hwf : BlocksWF exCfg (exDeletedDb.trees.docs exCfg.blocks) := by rw [exDeleted_blocks]; exact exFileDb_wf
  obtain ⟨n, hn⟩ := idsTo_of_wf hwf
  rcases append_cases exFiles_has (by decide) b 1 0 0 exDeletedDb hn with ⟨h, _⟩ | ⟨_, _, he⟩ | ⟨_, h, _⟩ | ⟨_, h, _⟩
  · exact absurd h hb
  · exact he
  · exact absurd exDeleted_none h
  · exact absurd exDeleted_none h

/-- **C77 is violated** (asynchronous) after an error: the bytes of the failed flush are thrown away, and the next
flush succeeds although they are not in the file.  (The blocking writer keeps them: its next flush fails again, or
appends them.) -/
theorem C77_violated_async_error_loses_bytes : ∃ es σ e,
    AExec exFiles exCfg 1 NeverAtOnce ⟨some .new, [], exFileDb⟩ es σ ∧
    es = [.wrote [5, 6] 2, .env [], .pending, .background, .flushFailed e, .flushed] ∧
    accepted es = [5, 6] ∧ contents exCfg σ.db 1 = [] := by
  have s2 : AStep exFiles exCfg 1 NeverAtOnce ⟨some ⟨1048576, [5, 6], none⟩, [], exFileDb⟩ (.env [])
      ⟨some ⟨1048576, [5, 6], none⟩, [], exDeletedDb⟩ :=
    .env (.other (.refl _) (by decide))
  have s3 : AStep exFiles exCfg 1 NeverAtOnce ⟨some ⟨1048576, [5, 6], none⟩, [], exDeletedDb⟩ .pending
      ⟨some ⟨1048576, [], some (.running [5, 6])⟩, [], exDeletedDb⟩ :=
    .flushPends (k := later) rfl (c := 1048576) ⟨Nat.le_refl _, id⟩ rfl
  have s4 := AStep.runs (s := exFiles) (cfg := exCfg) (fid := 1) (K := NeverAtOnce) (cap := 1048576) (buf := []) (bg := [])
    (exDeleted_append [5, 6] (by simp))
  have s5 : AStep exFiles exCfg 1 NeverAtOnce
      ⟨some ⟨1048576, [], some (.applied [5, 6] (.error (.notFound exCfg.files (toBE 4 1))))⟩, [], exDeletedDb⟩
      (.flushFailed (.notFound exCfg.files (toBE 4 1))) ⟨some ⟨1048576, [], none⟩, [], exDeletedDb⟩ :=
    .flushFails (k := later) rfl (c := 1048576) ⟨Nat.le_refl _, id⟩ rfl
  have s6 : AStep exFiles exCfg 1 NeverAtOnce ⟨some ⟨1048576, [], none⟩, [], exDeletedDb⟩ .flushed
      ⟨some ⟨1048576, [], none⟩, [], exDeletedDb⟩ :=
    .flush (k := later) rfl (c := 1048576) ⟨Nat.le_refl _, id⟩ rfl
  refine ⟨_, _, _, .snoc (.snoc (.snoc (.snoc (.snoc (.snoc (.nil _) (exAWrite rfl)) s2) s3) s4) s5) s6, rfl, rfl, ?_⟩
  show contents exCfg exDeletedDb 1 = []
  rw [← exFile_empty]
  unfold contents
  rw [exDeleted_blocks]

/-- **C77** (blocking): after an error the next flush does not succeed without the bytes: in the same situation it
fails again. -/
theorem C77_flush_fails_again (s : Schema) (cfg : Cfg) (hs : HasFiles s cfg) (hz : 0 < cfg.size) (fid : Nat) (db : Db)
    (hwf : BlocksWF cfg (db.trees.docs cfg.blocks)) (hgone : getDoc db cfg.files (toBE 4 fid) = none) (w : Buffered)
    (hb : w.buf ≠ []) (σ : WState) : ¬ WStep s cfg fid ⟨some w, db⟩ .flushed σ := by
  intro h
  cases h with
  | @flush _ _ now tid w' db' h =>
    have := (flush_ok h).1
    obtain ⟨n, hn⟩ := idsTo_of_wf hwf
    rcases append_cases hs hz w.buf fid now tid db hn with ⟨h, _⟩ | ⟨_, _, he⟩ | ⟨_, h, _⟩ | ⟨_, h, _⟩
    · exact absurd h hb
    · rw [he] at this; cases this
    · exact absurd hgone h
    · exact absurd hgone h

/-- **C77 is violated** (asynchronous) by dropping a writer: its last bytes are appended by a task in the
background, after what its owner appends later. -/
theorem C77_violated_async_drop_reorders : ∃ es σ, AExec exFiles exCfg 1 NeverAtOnce ⟨some .new, [], exFileDb⟩ es σ ∧
    es = [.wrote [5, 6] 2, .dropped, .env [.append 1 [7]], .background] ∧ contents exCfg σ.db 1 = [7, 5, 6] := by
  obtain ⟨db₁, ha, hg, hwf, hc⟩ := exGrow (b := [7]) (m := 2) exFileDb_wf
    ⟨exFile_grows.1, by decide, fun id hid => by
      have h1 := exFile_grows.2.2 id hid
      have : ([7] : Bytes).length = 1 := rfl
      omega⟩
  obtain ⟨db₂, ha₂, -, -, hc₂⟩ := exGrow (b := [5, 6]) (m := 0) hwf hg
  rw [exFile_empty] at hc
  rw [hc] at hc₂
  have s2 : AStep exFiles exCfg 1 NeverAtOnce ⟨some ⟨1048576, [5, 6], none⟩, [], exFileDb⟩ .dropped
      ⟨none, [] ++ [[5, 6]], exFileDb⟩ := .drop rfl
  have s3 : AStep exFiles exCfg 1 NeverAtOnce ⟨none, [] ++ [[5, 6]], exFileDb⟩ (.env ([] ++ [.append 1 [7]]))
      ⟨none, [] ++ [[5, 6]], db₁⟩ := .env (.append (.refl _) (by decide) ha)
  have s4 : AStep exFiles exCfg 1 NeverAtOnce ⟨none, [] ++ [[5, 6]], db₁⟩ .background ⟨none, [], db₂⟩ := .bgRuns ha₂
  exact ⟨_, _, .snoc (.snoc (.snoc (.snoc (.nil _) (exAWrite rfl)) s2) s3) s4, rfl, hc₂⟩

/-- **C77 is violated** (asynchronous) by dropping a writer during a flush: if the append was not executed yet the
bytes are lost, nobody is told. -/
theorem C77_violated_async_drop_during_flush : ∃ es σ, AExec exFiles exCfg 1 NeverAtOnce ⟨some .new, [], exFileDb⟩ es σ ∧
    es = [.wrote [5, 6] 2, .pending, .dropped, .background] ∧ σ.w = none ∧ σ.bg = [] ∧ contents exCfg σ.db 1 = [] := by
  have s2 : AStep exFiles exCfg 1 NeverAtOnce ⟨some ⟨1048576, [5, 6], none⟩, [], exFileDb⟩ .pending
      ⟨some ⟨1048576, [], some (.running [5, 6])⟩, [], exFileDb⟩ :=
    .flushPends (k := later) rfl (c := 1048576) ⟨Nat.le_refl _, id⟩ rfl
  have s3 : AStep exFiles exCfg 1 NeverAtOnce ⟨some ⟨1048576, [], some (.running [5, 6])⟩, [], exFileDb⟩ .dropped
      ⟨none, [] ++ [[5, 6]], exFileDb⟩ := .drop rfl
  have s4 : AStep exFiles exCfg 1 NeverAtOnce ⟨none, [] ++ [[5, 6]], exFileDb⟩ .background ⟨none, [], exFileDb⟩ := .bgLost
  exact ⟨_, _, .snoc (.snoc (.snoc (.snoc (.nil _) (exAWrite rfl)) s2) s3) s4, rfl, rfl, rfl, exFile_empty⟩

/-- **C77 is violated** (asynchronous) by dropping a writer after an append completed within its first poll inside
`write`: the drop panics, and the bytes that `write` accepted are lost. -/
theorem C77_violated_async_drop_panics : ∃ es σ, AExec exFiles exCfg 1 Any ⟨some .new, [], exFileDb⟩ es σ ∧
    es = [.resized, .wrote [5, 6] 2, .wrote [7] 1, .panicked] ∧ σ.w = none ∧ σ.bg = [] ∧
    contents exCfg σ.db 1 = [5, 6] := by
  obtain ⟨db₁, ha, -, -, hc⟩ := exGrow (b := [5, 6]) (m := 0) exFileDb_wf
    ⟨exFile_grows.1, by decide, fun id hid => by
      have h1 := exFile_grows.2.2 id hid
      have : ([5, 6] : Bytes).length = 2 := rfl
      omega⟩
  rw [exFile_empty] at hc
  have s1 : AStep exFiles exCfg 1 Any ⟨some .new, [], exFileDb⟩ .resized ⟨some ⟨2, [], none⟩, [], exFileDb⟩ :=
    .resize (k := later) (req := 2) (c := 0) (c' := 2) trivial ⟨Nat.le_refl _, id⟩ ⟨Nat.le_refl _, fun h => by cases h⟩ rfl
  have s2 : AStep exFiles exCfg 1 Any ⟨some ⟨2, [], none⟩, [], exFileDb⟩ (.wrote [5, 6] 2)
      ⟨some ⟨2, [5, 6], none⟩, [], exFileDb⟩ :=
    .write (k := later) (c₀ := 1048576) (c := 2) trivial ⟨exAlloc, Nat.le_refl _, id⟩ rfl
  have s3 : AStep exFiles exCfg 1 Any ⟨some ⟨2, [5, 6], none⟩, [], exFileDb⟩ (.wrote [7] 1)
      ⟨some ⟨2, [7], some .finished⟩, [], db₁⟩ := by
    refine .write (k := ⟨some (0, 0), true⟩) (c₀ := 1048576) (c := 2) trivial ⟨exAlloc, Nat.le_refl _, id⟩ ?_
    have ha0 : append exFiles exCfg [5, 6] 1 0#64 0 exFileDb = (.ok (), db₁) := ha
    simp [ABuffered.pollWrite, ABuffered.pollWriteWith, ABuffered.pollFlush, ha0, ABuffered.put]
  exact ⟨_, _, .snoc (.snoc (.snoc (.snoc (.nil _) s1) s2) s3) (.dropPanics rfl), rfl, rfl, rfl, hc⟩

/-- The hypotheses of the partial theorems about asynchronous writers are met: a flush that succeeded in its second
poll. -/
example : ∃ es w db', AExec exFiles exCfg 1 NeverAtOnce ⟨some .new, [], exFileDb⟩ (es ++ [.flushed]) ⟨some w, [], db'⟩ ∧
    accepted es = [5, 6] ∧ envOps es = [] ∧ ∀ e ∈ es, e.fails = false := by
  obtain ⟨db₁, ha, -, -, hc⟩ := exGrow (b := [5, 6]) (m := 0) exFileDb_wf
    ⟨exFile_grows.1, by decide, fun id hid => by
      have h1 := exFile_grows.2.2 id hid
      have : ([5, 6] : Bytes).length = 2 := rfl
      omega⟩
  have s2 : AStep exFiles exCfg 1 NeverAtOnce ⟨some ⟨1048576, [5, 6], none⟩, [], exFileDb⟩ .pending
      ⟨some ⟨1048576, [], some (.running [5, 6])⟩, [], exFileDb⟩ :=
    .flushPends (k := later) rfl (c := 1048576) ⟨Nat.le_refl _, id⟩ rfl
  have s3 := AStep.runs (s := exFiles) (cfg := exCfg) (fid := 1) (K := NeverAtOnce) (cap := 1048576) (buf := []) (bg := []) ha
  have s4 : AStep exFiles exCfg 1 NeverAtOnce ⟨some ⟨1048576, [], some (.applied [5, 6] (.ok ()))⟩, [], db₁⟩ .flushed
      ⟨some ⟨1048576, [], none⟩, [], db₁⟩ := .flush (k := later) rfl (c := 1048576) ⟨Nat.le_refl _, id⟩ rfl
  exact ⟨[.wrote [5, 6] 2, .pending, .background], _, _, .snoc (.snoc (.snoc (.snoc (.nil _) (exAWrite (K := NeverAtOnce) rfl)) s2) s3) s4, rfl, rfl, by
    intro e he; simp at he; rcases he with rfl | rfl | rfl <;> rfl⟩

end Bonsai.Files
