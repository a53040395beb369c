import Verif.Files.C50
import Verif.Views.C29

/-!
# C50: lengths and histories
-/
set_option linter.unusedSimpArgs false
set_option linter.unusedSectionVars false

namespace Bonsai.Files
open Bonsai Bonsai.Names Bonsai.Store Bonsai.Query

/-! ## Length -/

theorem maxStamp_perm : ∀ {l m : List (BitVec 64)}, l.Perm m → maxStamp l = maxStamp m := by
  intro l m h
  induction h with
  | nil => rfl
  | cons x _ ih => simp only [maxStamp, ih]
  | swap x y l =>
    simp only [maxStamp]
    cases maxStamp l with
    | none =>
      simp only
      congr 1
      by_cases h1 : x.toInt ≤ y.toInt <;> by_cases h2 : y.toInt ≤ x.toInt
      · have : x = y := BitVec.eq_of_toInt_eq (by omega)
        subst this; rfl
      · simp [h1, h2]
      · simp [h1, h2]
      · omega
    | some z =>
      simp only
      congr 1
      by_cases h1 : x.toInt ≤ z.toInt
      · by_cases h2 : y.toInt ≤ z.toInt
        · simp only [h1, h2, if_true]
        · have h3 : x.toInt ≤ y.toInt := by omega
          simp only [h1, h2, h3, if_true, if_false]
      · by_cases h2 : y.toInt ≤ z.toInt
        · have h3 : y.toInt ≤ x.toInt := by omega
          simp only [h1, h2, h3, if_true, if_false]
        · by_cases h3 : x.toInt ≤ y.toInt <;> by_cases h4 : y.toInt ≤ x.toInt
          · have : x = y := BitVec.eq_of_toInt_eq (by omega)
            subst this; rfl
          · simp only [h1, h2, h3, h4, if_true, if_false]
          · simp only [h1, h2, h3, h4, if_true, if_false]
          · omega
  | trans _ _ ih1 ih2 => exact ih1.trans ih2

theorem insertInfo_perm (b : BlockInfo) : ∀ (l : List BlockInfo), (insertInfo b l).Perm (b :: l)
  | [] => .refl _
  | x :: l => by
    unfold insertInfo
    split
    · exact .refl _
    · exact (List.Perm.cons _ (insertInfo_perm b l)).trans (.swap ..)

theorem sortInfos_perm : ∀ (l : List BlockInfo), (sortInfos l).Perm l
  | [] => .refl _
  | b :: l => (insertInfo_perm b _).trans (.cons _ (sortInfos_perm l))

/-- **C50**: `len` is the number of bytes of the file, `last_appended_at` the latest timestamp of its blocks. -/
theorem C50_len (cfg : Cfg) (k : Codec) (hk : k.Lawful) (es : OMap ViewEntry) (m : OMap Document)
    (h : Current (byFile cfg k) es m) (hwf : BlocksWF cfg m) (fid : Nat) (hf : fid < 2 ^ 32) :
    summary cfg k es fid = some ⟨(bytesOf m fid).length, maxStamp ((blocksOf m fid).map stamp)⟩ := by
  obtain ⟨h1, h2⟩ := mappings_byFile hk h hwf hf
  have hperm := sortInfos_perm ((mappingsAt es (toBE 4 fid)).map (infoOfMapping k))
  rw [h2] at hperm
  -- the values decode
  have hdec : ∀ ms : List EntryMapping, (∀ x ∈ ms, ∃ i, k.dec x.value = some i ∧
      infoOfMapping k x = ⟨x.source, 0, i.length, i.timestamp⟩) →
      (ms.map fun x => (toBE 4 fid, x.value)).mapM (fun p => k.dec p.2) =
        some (ms.map fun x => ⟨(infoOfMapping k x).length, (infoOfMapping k x).timestamp⟩) := by
    intro ms
    induction ms with
    | nil => intro _; rfl
    | cons x ms ih =>
      intro hx
      obtain ⟨i, hi, e⟩ := hx x (by simp)
      have ih := ih fun y hy => hx y (by simp [hy])
      simp only [List.map_cons, List.mapM_cons, ih, hi, e]
      rfl
  have hred : reduceInfos ((mappingsAt es (toBE 4 fid)).map fun x =>
      ⟨(infoOfMapping k x).length, (infoOfMapping k x).timestamp⟩) =
        ⟨(bytesOf m fid).length, maxStamp ((blocksOf m fid).map stamp)⟩ := by
    unfold reduceInfos bytesOf
    rw [bytes_length]
    congr 1
    · have := (hperm.map (·.length)).sum_nat
      rw [List.map_map, List.map_map] at this
      rw [List.map_map]
      exact this.symm
    · have := maxStamp_perm (hperm.filterMap (·.timestamp))
      rw [List.filterMap_map, List.filterMap_map] at this
      rw [List.filterMap_map]
      refine this.symm.trans ?_
      congr 1
      generalize blocksOf m fid = l
      induction l with
      | nil => rfl
      | cons d l ih => simp only [List.filterMap_cons, Function.comp, infoOfDoc, List.map_cons, ← ih]
  have hv : viewIterator es (some (.matches_ (toBE 4 fid))) .ascending none = (es.get (toBE 4 fid)).toList := rfl
  unfold summary reduceByName reduceGrouped
  rw [hv]
  have hd := hdec _ h1
  unfold mappingsAt at hd hred
  cases he : es.get (toBE 4 fid) with
  | none =>
    rw [he] at hred
    simp only [Option.map_none, Option.getD_none, List.map_nil] at hred
    simp only [Option.toList_none, List.map_nil, byFile, List.mapM_nil]
    show k.dec (k.enc (reduceInfos [])) = _
    rw [hred]
    exact hk _
  | some e =>
    rw [he] at hred hd
    simp only [Option.map_some, Option.getD_some] at hred hd
    have hr := h.2.1 _ e he
    simp only [byFile, hd, hred] at hr
    injection hr with hr
    simp only [Option.toList_some, List.map_cons, List.map_nil]
    rw [← hr]
    exact hk _

/-! ## The view is up to date -/

/-- In every state reachable by any interleaving of transactions, mapping jobs, failures and restarts in which
no document is left to be mapped, the view of blocks is up to date (C29, C33). -/
theorem current_of_exec {s : Schema} (hdv : DistinctViews s) {cfg : Cfg} {k : Codec} (hv : byFile cfg k ∈ s.views)
    {σ₀ σ : VSys} (hst : VStart (byFile cfg k) σ₀) (he : VExec s σ₀ σ)
    (hmapped : ∀ id, (σ.db.trees.invalidated (byFile cfg k).name).get id = none) :
    Current (byFile cfg k) (σ.db.trees.entries (byFile cfg k).name) (σ.db.trees.docs cfg.blocks) := by
  obtain ⟨hinv, _⟩ := vexec_inv hdv hv (vstart_inv hst) hst.known he
  refine ⟨hinv.view.1.1, vexec_red hdv hv ?_ hst he, fun id => hinv.view.2 id (hmapped id)⟩
  intro l b
  simp only [byFile]
  split <;> simp

/-! ## Histories -/

theorem execUpdate_frame {s : Schema} {c c' : QName} (hc : c' ≠ c) {t t' : Trees} {id : Bytes} {ck : Option Revision}
    {x : Bytes} {r : OpResult} (h : execUpdate s c t id ck x = .ok (t', r)) : t'.docs c' = t.docs c' := by
  unfold execUpdate at h
  split at h
  · cases h
  · cases h; rfl
  · split at h
    · cases h
    · rename_i hst
      cases h
      rw [(storeDoc_ok hst).1]
      simp [upd_ne _ _ hc]

theorem execOp_frame {s : Schema} {op : Operation} {c : QName} (hc : c ≠ op.collection) {t t' : Trees} {r : OpResult}
    (h : execOp s t op = .ok (t', r)) : t'.docs c = t.docs c := by
  obtain ⟨cn, cmd⟩ := op
  cases cmd with
  | insert id x =>
    simp only [execOp, execInsert] at h
    split at h
    · cases h
    · split at h
      · cases h
      · split at h
        · cases h
        · rename_i hst
          cases h
          rw [(storeDoc_ok hst).1]
          simp [upd_ne _ _ hc]
  | update hd x => exact execUpdate_frame hc h
  | overwrite id x => exact execUpdate_frame hc h
  | delete hd =>
    simp only [execOp, execDelete] at h
    split at h
    · cases h
    · split at h
      · split at h
        · cases h
        · rename_i hst
          cases h
          rw [(updateEagerViews_docs hst).1]
          simp [upd_ne _ _ hc]
      · cases h
  | check id rev =>
    simp only [execOp, execCheck] at h
    split at h
    · cases h
    · split at h
      · split at h <;> cases h; rfl
      · cases h; rfl

theorem runOps_frame {s : Schema} {c : QName} : ∀ {ops : List Operation} {t t' : Trees} {ch ch' : Changes}
    {rs : List OpResult}, (∀ op ∈ ops, c ≠ op.collection) → runOps s t ch ops = .ok (t', ch', rs) →
      t'.docs c = t.docs c
  | [], _, _, _, _, _, _, h => by cases h; rfl
  | op :: ops, t, t', ch, ch', rs, hc, h => by
    simp only [runOps] at h
    split at h
    · cases h
    · rename_i hex
      split at h
      · cases h
      · split at h
        · cases h
        · rename_i hr
          cases h
          rw [runOps_frame (fun o ho => hc o (List.mem_cons_of_mem _ ho)) hr, execOp_frame (hc op (List.mem_cons_self ..)) hex]

/-- A transaction that does not write to a collection leaves its documents alone. -/
theorem apply_frame {s : Schema} {c : QName} {ops : List Operation} (hc : ∀ op ∈ ops, c ≠ op.collection) (db : Db)
    (tid : Nat) : (applyToRoots s db tid ops).2.trees.docs c = db.trees.docs c := by
  unfold applyToRoots
  generalize hp : prepare s db.trees ops = r
  unfold prepare at hp
  split at hp
  · split at hp
    · subst hp; rfl
    · rename_i hr
      subst hp
      show (invalidateChanged s _ _).docs c = _
      rw [invalidateChanged_docs]
      exact runOps_frame hc hr
  · subst hp; rfl

/-- What users do with files. -/
inductive FOp where
  | append (fid : Nat) (data : Bytes)
  | truncate (fid : Nat) (newLength : Nat) (from_ : Truncate)
  deriving DecidableEq

/-- Executions: successful and failed appends, truncations, and any other transactions that do not write blocks
(creating and renaming files, other collections).  The list is what succeeded. -/
inductive Run (s : Schema) (cfg : Cfg) : Db → List FOp → Db → Prop
  | refl (db) : Run s cfg db [] db
  | append {db ops db₁ db₂ fid data now tid} (h : Run s cfg db ops db₁) (hf : fid < 2 ^ 32)
      (ha : append s cfg data fid now tid db₁ = (.ok (), db₂)) : Run s cfg db (ops ++ [.append fid data]) db₂
  | appendFails {db ops db₁ db₂ fid data now tid e} (h : Run s cfg db ops db₁)
      (ha : append s cfg data fid now tid db₁ = (.error e, db₂)) : Run s cfg db ops db₂
  | truncate {db ops db₁ db₂ fid newLength from_ tid} (h : Run s cfg db ops db₁)
      (ht : truncate s cfg (infosOf (blocksOf (db₁.trees.docs cfg.blocks) fid)) newLength from_ tid db₁ = (.ok (), db₂)) :
      Run s cfg db (ops ++ [.truncate fid newLength from_]) db₂
  | other {db ops db₁ tx tid} (h : Run s cfg db ops db₁) (ho : ∀ op ∈ tx, cfg.blocks ≠ op.collection) :
      Run s cfg db ops (applyToRoots s db₁ tid tx).2

/-- What an operation may do to the contents of the file `fid`, from its documentation. -/
def Effect (size fid : Nat) : FOp → Bytes → Bytes → Prop
  | .append g data, old, new => if g = fid then new = old ++ data else new = old
  | .truncate g n from_, old, new =>
    if g = fid then
      (match from_ with | .removingStart => new <:+ old | .removingEnd => new <+: old) ∧
      (old.length ≤ n → new = old) ∧ (n ≤ old.length → n ≤ new.length ∧ new.length < n + size) ∧
      (n = 0 → new = [])
    else new = old

/-- The contents a file may have after some operations. -/
inductive Possible (size fid : Nat) : Bytes → List FOp → Bytes → Prop
  | nil (b) : Possible size fid b [] b
  | snoc {b ops b₁ op b₂} (h : Possible size fid b ops b₁) (he : Effect size fid op b₁ b₂) :
      Possible size fid b (ops ++ [op]) b₂

theorem append_fails {s : Schema} {cfg : Cfg} {data : Bytes} {fid : Nat} {now : BitVec 64} {tid : Nat} {db db' : Db} {e : Err}
    (h : append s cfg data fid now tid db = (.error e, db')) : db' = db := by
  unfold append at h
  split at h
  · cases h
  · split at h
    · cases h; rfl
    · generalize hr : applyToRoots s db tid (appendOps cfg data fid now) = r at h
      obtain ⟨r, d⟩ := r
      cases r with
      | ok _ => cases h
      | error _ =>
        cases h
        unfold applyToRoots at hr
        split at hr <;> cases hr
        rfl

/-- **C50**: after every history of appends (failed ones too), truncations and other transactions, each file has
contents its own operations allow, and the stored blocks are within the block size. -/
theorem C50_history (s : Schema) (cfg : Cfg) (hs : HasFiles s cfg) (hz : 0 < cfg.size) (db db' : Db) (ops : List FOp)
    (hwf : BlocksWF cfg (db.trees.docs cfg.blocks)) (h : Run s cfg db ops db') :
    BlocksWF cfg (db'.trees.docs cfg.blocks) ∧
    ∀ fid, Possible cfg.size fid (contents cfg db fid) ops (contents cfg db' fid) := by
  induction h with
  | refl => exact ⟨hwf, fun _ => .nil _⟩
  | append h hf ha ih =>
    obtain ⟨h1, h2, h3, -⟩ := C50_append s cfg hs hz _ _ ih.1 _ _ hf _ _ ha
    refine ⟨h3, fun g => .snoc (ih.2 g) ?_⟩
    unfold Effect
    simp only
    split
    · rename_i e; subst e; exact h1
    · rename_i e; exact h2 g (Ne.symm e)
  | appendFails h ha ih =>
    rw [append_fails ha]
    exact ih
  | @truncate ops db₁ db₂ fid n from_ tid h ht ih =>
    obtain ⟨d, hd, h1, h2, h3, h4, h5, h6, -⟩ := C50_truncate s cfg hs hz db₁ ih.1 (db₁.trees.docs cfg.blocks) fid n from_ tid rfl
    rw [ht] at hd
    cases hd
    refine ⟨h6, fun g => .snoc (ih.2 g) ?_⟩
    unfold Effect
    simp only
    split
    · rename_i e; subst e; exact ⟨h1, h2, h3, h4⟩
    · rename_i e; exact h5 g (Ne.symm e)
  | other h ho ih =>
    have := apply_frame (s := s) ho
    unfold contents
    simp only [this]
    exact ih

/-! ## Examples -/

/-- Two collections for files with blocks of two bytes, besides another collection. -/
def exCfg : Cfg := ⟨⟨"f", "files"⟩, ⟨"f", "blocks"⟩, 2⟩

/-- A schema with them. -/
def exFiles : Schema where
  digest := id
  collections := [exC, exCfg.files, exCfg.blocks]
  nextId c := if c = exCfg.blocks then keyNextId (uintKey 8) (some (primFirst 8)) uintNext
    else keyNextId (uintKey 4) (some (primFirst 4)) uintNext
  views := []

theorem exFiles_has : HasFiles exFiles exCfg where
  filesKnown := by decide
  blocksKnown := by decide
  apart := by decide
  blockIds := rfl
  fileIds := rfl
  lazyBlocks := by intro v hv; cases hv

/-- A database with the files 1 and 2. -/
def exFileDb : Db := (applyToRoots exFiles .empty 0
  [⟨exCfg.files, .insert (some [0, 0, 0, 1]) [7]⟩, ⟨exCfg.files, .insert (some [0, 0, 0, 2]) [8]⟩]).2

theorem exFileDb_wf : BlocksWF exCfg (exFileDb.trees.docs exCfg.blocks) := by
  have h : exFileDb.trees.docs exCfg.blocks = Db.empty.trees.docs exCfg.blocks := by
    refine apply_frame ?_ _ _
    decide
  rw [h]
  intro id d hd
  cases hd

theorem exFileDb_file : getDoc exFileDb exCfg.files (toBE 4 1) ≠ none := by decide

/-- Five bytes appended to file 1 of the example. -/
theorem exAppend : ∃ db', append exFiles exCfg [1, 2, 3, 4, 5] 1 0 1 exFileDb = (.ok (), db') ∧
    contents exCfg db' 1 = [1, 2, 3, 4, 5] := by
  have h1 := (C50_append_succeeds exFiles exCfg exFiles_has (by decide) exFileDb exFileDb_wf [1, 2, 3, 4, 5] 1 0 1
    (by
      intro id hid
      exact absurd (show getDoc exFileDb exCfg.blocks id = none by
        unfold getDoc
        have h : exFileDb.trees.docs exCfg.blocks = Db.empty.trees.docs exCfg.blocks := apply_frame (by decide) _ _
        rw [h]; rfl) hid) (by decide)).1.mpr (.inr exFileDb_file)
  generalize hr : append exFiles exCfg [1, 2, 3, 4, 5] 1 0 1 exFileDb = r at h1
  obtain ⟨r, db'⟩ := r
  simp only at h1
  subst h1
  refine ⟨db', rfl, ?_⟩
  rw [(C50_append exFiles exCfg exFiles_has (by decide) _ _ exFileDb_wf _ _ (by decide) _ _ hr).1]
  have h : exFileDb.trees.docs exCfg.blocks = Db.empty.trees.docs exCfg.blocks := apply_frame (by decide) _ _
  unfold contents
  rw [h]
  rfl

/-- Truncating five bytes in blocks of two to one byte from the start leaves one or two bytes (here the last
block, one byte). -/
example : dropBlocks (5 - 1) [⟨⟨[1], ⟨0, []⟩⟩, 0, 2, none⟩, ⟨⟨[2], ⟨0, []⟩⟩, 2, 2, none⟩, ⟨⟨[3], ⟨0, []⟩⟩, 4, 1, none⟩] =
    [⟨[1], ⟨0, []⟩⟩, ⟨[2], ⟨0, []⟩⟩] := by decide

/-- A history meeting the hypotheses of `C50_history`: an append and a truncation. -/
example : ∃ db' : Db, Run exFiles exCfg exFileDb [.append 1 [1, 2, 3, 4, 5], .truncate 1 1 .removingEnd] db' := by
  obtain ⟨db₁, h1, -⟩ := exAppend
  have hr := Run.append (Run.refl (s := exFiles) (cfg := exCfg) exFileDb) (by decide) h1
  have hwf := (C50_history exFiles exCfg exFiles_has (by decide) _ _ _ exFileDb_wf hr).1
  obtain ⟨db₂, h2, -⟩ := C50_truncate exFiles exCfg exFiles_has (by decide) db₁ hwf _ 1 1 .removingEnd 2 rfl
  exact ⟨db₂, .truncate hr h2⟩

/-- A serialization of view values. -/
def exCodec : Codec where
  enc i := List.replicate i.length 0 ++ match i.timestamp with | none => [1] | some t => 2 :: toBE 8 t.toNat
  dec b :=
    match b.dropWhile (· = 0) with
    | 1 :: _ => some ⟨(b.takeWhile (· = 0)).length, none⟩
    | 2 :: r => some ⟨(b.takeWhile (· = 0)).length, some (BitVec.ofNat 64 (fromBE r))⟩
    | _ => none

theorem exCodec_lawful : exCodec.Lawful := by
  have hd : ∀ (n : Nat) (x : UInt8) (l : Bytes), x ≠ 0 →
      (List.replicate n (0 : UInt8) ++ x :: l).dropWhile (· = 0) = x :: l := by
    intro n x l hx
    induction n with
    | zero => simp [hx]
    | succ n ih => simp [List.replicate_succ, ih]
  have ht : ∀ (n : Nat) (x : UInt8) (l : Bytes), x ≠ 0 →
      (List.replicate n (0 : UInt8) ++ x :: l).takeWhile (· = 0) = List.replicate n 0 := by
    intro n x l hx
    induction n with
    | zero => simp [hx]
    | succ n ih => simp [List.replicate_succ, ih]
  rintro ⟨n, t⟩
  cases t with
  | none =>
    simp only [exCodec]
    rw [hd n 1 [] (by decide), ht n 1 [] (by decide)]
    simp
  | some t =>
    simp only [exCodec]
    rw [hd n 2 _ (by decide), ht n 2 _ (by decide)]
    have : fromBE (toBE 8 t.toNat) = t.toNat := fromBE_toBE (by have := t.isLt; omega)
    simp [this]

/-- A block of file 1 with three bytes. -/
def exBlock : Document := newBlock exFiles (toBE 8 1) [5, 6, 7] 1 9

/-- The view after that block was mapped. -/
def exEntry : ViewEntry := ⟨2, toBE 4 1, [⟨exBlock.header, exCodec.enc ⟨3, some 9⟩⟩], exCodec.enc ⟨3, some 9⟩⟩

/-- An up-to-date view that is not empty: the hypothesis of `C50_len`. -/
example : Current (byFile ⟨exCfg.files, exCfg.blocks, 4⟩ exCodec) (OMap.empty.set (toBE 4 1) exEntry)
      (OMap.empty.set (toBE 8 1) exBlock) ∧
    BlocksWF ⟨exCfg.files, exCfg.blocks, 4⟩ (OMap.empty.set (toBE 8 1) exBlock) := by
  have hp : payload exBlock = [5, 6, 7] := payload_new _ _ _ _ _
  have ho : owner exBlock = 1 := owner_new _ _ _ (by decide) _
  have ht : stamp exBlock = 9 := stamp_new _ _ _ _ _
  refine ⟨⟨?_, ?_, ?_⟩, ?_⟩
  · intro key e he
    rw [OMap.get_set] at he
    split at he
    · rename_i h; cases he; exact ⟨h, by simp [exEntry], by simp [exEntry]⟩
    · cases he
  · intro key e he
    rw [OMap.get_set] at he
    split at he
    · cases he
      simp only [byFile, exEntry, List.map_cons, List.map_nil, List.mapM_cons, List.mapM_nil, exCodec_lawful _]
      rfl
    · cases he
  · intro id
    refine ⟨fun x hx => rfl, fun key => ?_⟩
    by_cases hi : id = toBE 8 1
    · subst hi
      rw [OMap.get_set_self]
      unfold found
      rw [OMap.get_set]
      by_cases hk : toBE 4 1 = key
      · subst hk
        rw [if_pos rfl, (expect_byFile (x := ⟨exBlock.header, exCodec.enc ⟨3, some 9⟩⟩) (by decide)).mpr ⟨ho, by rw [hp, ht]; rfl⟩]
        simp only [Option.bind_some, findId, exEntry, List.find?_cons]
        rw [show decide (exBlock.header.id = toBE 8 1) = true from by decide]
      · rw [if_neg hk]
        simp [expect, byFile, lastValue, ho, hk]
    · rw [OMap.get_set_ne _ (Ne.symm hi)]
      unfold found
      rw [OMap.get_set]
      split
      · simp only [Option.bind_some, findId, exEntry, List.find?_cons]
        rw [show decide (exBlock.header.id = id) = false from decide_eq_false fun e => hi e.symm]
        rfl
      · rfl
  · intro id d hd
    rw [OMap.get_set] at hd
    split at hd
    · rename_i e
      cases hd
      exact ⟨by rw [← e]; rfl, e, by decide, by rw [hp]; simp, by rw [hp]; decide⟩
    · cases hd

end Bonsai.Files
