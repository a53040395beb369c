import Verif.Files.C53b
import Verif.Files.C52d

/-!
# C53: one client at a time; where the property fails
-/
set_option linter.unusedSimpArgs false
set_option linter.unusedSectionVars false

namespace Bonsai.Files
open Bonsai Bonsai.Names Bonsai.Store Bonsai.Query

/-- **C53** (one client): `create` stores a file with exactly the data given and changes nothing else.  When it
fails, nothing is stored, or (partial) the document is there with no data: see `C53_violated_crash_create`. -/
theorem C53_create_partial (s : Schema) (cfg : Cfg) (hs : HasFiles s cfg) (hz : 0 < cfg.size) (k : FileCodec)
    (hk : k.Lawful) (db db' : Db) (hwf : BlocksWF cfg (db.trees.docs cfg.blocks)) (hno : NoOrphans cfg db) (b : Builder)
    (data md : Bytes) (now now' : BitVec 64) (tid tid' : Nat) (r : Except FErr Found)
    (h : createFile s cfg k b data md now now' tid tid' db = (r, db')) :
    (∀ hd f, r = .ok (hd, f) →
      newFile b now md = .ok f ∧ getDoc db cfg.files hd.id = none ∧ IsFile k (db'.trees.docs cfg.files) hd f ∧
      (∀ id, id ≠ hd.id → getDoc db' cfg.files id = getDoc db cfg.files id) ∧
      contents cfg db' (fromBE hd.id) = data ∧
      ∀ g, g ≠ fromBE hd.id → contents cfg db' g = contents cfg db g) ∧
    (∀ e, r = .error e → db' = db ∨ ∃ hd : Header, getDoc db cfg.files hd.id = none ∧ getDoc db' cfg.files hd.id ≠ none ∧
      (∀ id, id ≠ hd.id → getDoc db' cfg.files id = getDoc db cfg.files id) ∧
      ∀ g, contents cfg db' g = contents cfg db g) := by
  unfold createFile at h
  cases hn : newFile b now md with
  | error e =>
    simp only [hn] at h
    cases h
    exact ⟨fun _ _ e => (by cases e), fun _ _ => .inl rfl⟩
  | ok f =>
    simp only [hn] at h
    generalize hp : pushFile s cfg k f tid db = p at h
    obtain ⟨p, db₁⟩ := p
    cases p with
    | error e =>
      cases h
      cases pushFile_err hs hp
      exact ⟨fun _ _ e => (by cases e), fun _ _ => .inl rfl⟩
    | ok hd =>
      simp only at h
      obtain ⟨-, hnone, hself, hfr⟩ := pushFile_ok hs hp
      have hid := push_id hs hp
      have hb : db₁.trees.docs cfg.blocks = db.trees.docs cfg.blocks :=
        OMap.ext_get fun id => hfr _ _ fun e => hs.apart e.1.symm
      have hcon : ∀ g, contents cfg db₁ g = contents cfg db g := fun g => by unfold contents; rw [hb]
      have hwf₁ : BlocksWF cfg (db₁.trees.docs cfg.blocks) := by rw [hb]; exact hwf
      generalize ha : append s cfg data (fromBE hd.id) now' tid' db₁ = a at h
      obtain ⟨a, db₂⟩ := a
      cases a with
      | error e =>
        cases h
        cases append_fails ha
        refine ⟨fun _ _ e => (by cases e), fun _ _ => .inr ⟨hd, hnone, ?_, fun id hne => hfr _ _ fun e => hne e.2, hcon⟩⟩
        unfold getDoc
        rw [hself]
        simp
      | ok u =>
        cases h
        obtain ⟨h1, h2, -⟩ := C50_append s cfg hs hz _ _ hwf₁ data _ (fromBE_lt4 hid) now' tid' ha
        have hfiles := (append_files hs ha).1
        refine ⟨?_, fun _ e => (by cases e)⟩
        rintro hd' f' e
        cases e
        refine ⟨rfl, hnone, ?_, ?_, ?_, fun g hg => by rw [h2 g hg, hcon]⟩
        · rw [hfiles]; exact isFile_of_get hk hself
        · intro id hne
          unfold getDoc
          rw [hfiles]
          exact hfr _ _ fun e => hne e.2
        · rw [h1, hcon]
          have : contents cfg db (fromBE hd.id) = [] := by
            rw [contents_empty_iff hwf]
            intro id d hg ho
            refine hno id d hg ?_
            rw [ho, be4 hid]
            exact hnone
          rw [this, List.nil_append]

/-- **C53** (one client): `delete` removes the file and all of its data and nothing else.  When it fails, nothing
is removed, or (partial) all data but not the file: see `C53_violated_stale_handle`. -/
theorem C53_delete_partial (s : Schema) (cfg : Cfg) (hs : HasFiles s cfg) (kb : Codec)
    (db db' : Db) (hwf : BlocksWF cfg (db.trees.docs cfg.blocks)) (es : OMap ViewEntry)
    (he : Current (byFile cfg kb) es (db.trees.docs cfg.blocks)) (hd : Header) (hid : hd.id.length = 4) (tid tid' : Nat)
    (r : Except Err Unit) (h : deleteFile s cfg es hd tid tid' db = (r, db')) :
    (r = .ok () → getDoc db' cfg.files hd.id = none ∧
      (∀ id, id ≠ hd.id → getDoc db' cfg.files id = getDoc db cfg.files id) ∧
      contents cfg db' (fromBE hd.id) = [] ∧ ∀ g, g ≠ fromBE hd.id → contents cfg db' g = contents cfg db g) ∧
    (∀ e, r = .error e → db' = db ∨ ((∀ id, getDoc db' cfg.files id = getDoc db cfg.files id) ∧
      contents cfg db' (fromBE hd.id) = [] ∧ ∀ g, g ≠ fromBE hd.id → contents cfg db' g = contents cfg db g)) := by
  have hf4 := fromBE_lt4 hid
  unfold deleteFile at h
  generalize hb : deleteBlocks s cfg es (fromBE hd.id) tid db = b at h
  obtain ⟨b, db₁⟩ := b
  cases b with
  | error e =>
    cases h
    exact ⟨fun e => (by cases e), fun _ _ => .inl (deleteBlocks_err hb)⟩
  | ok n =>
    simp only at h
    obtain ⟨h1, h2, h3, -⟩ := deleteBlocks_ok hs he.1 hb
    have hfound : ∀ id d, (db.trees.docs cfg.blocks).get id = some d →
        ((found es (toBE 4 (fromBE hd.id)) id).isSome ↔ owner d = fromBE hd.id) := by
      intro id d hg
      rw [(he.2.2 id).2 (toBE 4 (fromBE hd.id)), hg]
      constructor
      · intro hs'
        obtain ⟨x, hx⟩ := Option.isSome_iff_exists.mp hs'
        exact ((expect_byFile (by omega)).mp hx).1
      · intro ho
        rw [(expect_byFile (by omega)).mpr ⟨ho, rfl⟩]; rfl
    have hget : ∀ id d, (db₁.trees.docs cfg.blocks).get id = some d ↔
        (db.trees.docs cfg.blocks).get id = some d ∧ owner d ≠ fromBE hd.id := by
      intro id d
      cases hf : (found es (toBE 4 (fromBE hd.id)) id).isSome with
      | true =>
        rw [h2 id hf]
        constructor
        · intro e; cases e
        · rintro ⟨hg, ho⟩; exact absurd ((hfound id d hg).mp hf) ho
      | false =>
        rw [h3 id hf]
        constructor
        · intro hg
          refine ⟨hg, fun ho => ?_⟩
          rw [(hfound id d hg).mpr ho] at hf
          cases hf
        · exact fun h => h.1
    have hwf₁ : BlocksWF cfg (db₁.trees.docs cfg.blocks) := blocks_shrink_wf hwf fun id d hg => ((hget id d).mp hg).1
    have hempty : contents cfg db₁ (fromBE hd.id) = [] :=
      (contents_empty_iff hwf₁).mpr fun id d hg => ((hget id d).mp hg).2
    have hothers : ∀ g, g ≠ fromBE hd.id → contents cfg db₁ g = contents cfg db g := by
      intro g hg
      unfold contents bytesOf
      congr 1
      refine sorted_docs_ext (blocksOf_sorted hwf₁ g) (blocksOf_sorted hwf g) fun d => ?_
      rw [mem_blocksOf, mem_blocksOf]
      constructor
      · rintro ⟨ho, id, hg'⟩; exact ⟨ho, id, ((hget id d).mp hg').1⟩
      · rintro ⟨ho, id, hg'⟩; exact ⟨ho, id, (hget id d).mpr ⟨hg', by rw [ho]; exact hg⟩⟩
    cases r with
    | error e =>
      cases deleteDoc_err h
      refine ⟨fun e => (by cases e), fun _ _ => .inr ⟨fun id => ?_, hempty, hothers⟩⟩
      unfold getDoc
      rw [h1]
    | ok u =>
      obtain ⟨-, hg⟩ := deleteDoc_ok h
      have hb2 : ∀ g, contents cfg db' g = contents cfg db₁ g := by
        intro g
        unfold contents
        congr 1
        exact OMap.ext_get fun id => by rw [hg, if_neg fun e => hs.apart e.1.symm]
      refine ⟨fun _ => ⟨?_, ?_, by rw [hb2]; exact hempty, fun g hne => by rw [hb2]; exact hothers g hne⟩,
        fun _ e => (by cases e)⟩
      · unfold getDoc; rw [hg]; simp
      · intro id hne
        unfold getDoc
        rw [hg, if_neg fun e => hne e.2, h1]

/-! ## Examples and violations -/

/-- A file in the root directory. -/
def exF (c : Char) : FileRec := ⟨none, [c], 0, []⟩

/-- Its database after the first transaction of `create`. -/
def exLife1 : Db := (pushFile exFiles exCfg exFileCodec (exF 'a') 0 .empty).2

/-- The header of the file. -/
def exH1 : Header := ⟨toBE 4 1, ⟨0, exFileCodec.enc (exF 'a')⟩⟩

theorem exPush1 : pushFile exFiles exCfg exFileCodec (exF 'a') 0 .empty = (.ok exH1, exLife1) := rfl

/-- The database after the second one. -/
def exLife2 : Db := (applyToRoots exFiles exLife1 1
  [⟨exCfg.files, .check (toBE 4 1) none⟩, ⟨exCfg.blocks, .insert none (blockContents [5, 6] 1 0)⟩]).2

theorem ex_chunks : chunks exCfg.size [5, 6] = [[5, 6]] := by
  rw [chunks_cons (by decide) (by decide)]
  rw [show List.drop exCfg.size [(5 : UInt8), 6] = [] from rfl, chunks_nil]
  rfl

theorem exFill1 : append exFiles exCfg [5, 6] 1 0 1 exLife1 = (.ok (), exLife2) := by
  unfold append appendOps
  rw [if_neg (by decide), if_neg (by decide), ex_chunks]
  rfl

theorem exLife2_contents : contents exCfg exLife2 1 = [5, 6] := by decide

/-- Before anything happened. -/
def exF0 : FSys := ⟨.empty, fun _ => .idle⟩

theorem exF0_start : FStart exCfg exF0 := ⟨fun _ => rfl, fun _ => rfl, fun _ => rfl⟩

/-- All contents. -/
def anyBytes (_ : Bytes) : Prop := True

theorem exNew1 : newFile ⟨none, ['a']⟩ 0 [] = .ok (exF 'a') := rfl

/-- Client 0 inserts the document of a file that is to have contents. -/
theorem exStep1 : FStep exFiles exCfg exFileCodec exCodec anyBytes exF0 .quiet
    (exF0.put 0 (.creating exH1 [5, 6]) exLife1) :=
  .push rfl exNew1 exPush1

/-- ... and then its data. -/
theorem exStep2 : FStep exFiles exCfg exFileCodec exCodec anyBytes (exF0.put 0 (.creating exH1 [5, 6]) exLife1)
    (.appends 1) ((exF0.put 0 (.creating exH1 [5, 6]) exLife1).put 0 .idle exLife2) :=
  .fill (h := exH1) (data := [5, 6]) rfl (fun _ _ => trivial) exFill1

/-- **C53 is violated** by a crash between the two transactions of `create`: the file exists without its
contents. -/
theorem C53_violated_crash_create : ∃ σ₀ σ₁ σ₂ hd data,
    FStart exCfg σ₀ ∧ FStep exFiles exCfg exFileCodec exCodec anyBytes σ₀ .quiet σ₁ ∧
    σ₁.clients 0 = .creating hd data ∧ data ≠ [] ∧
    FStep exFiles exCfg exFileCodec exCodec anyBytes σ₁ .quiet σ₂ ∧ (∀ c, σ₂.clients c = .idle) ∧
    getDoc σ₂.db exCfg.files hd.id ≠ none ∧ contents exCfg σ₂.db (fromBE hd.id) = [] :=
  ⟨exF0, _, _, exH1, [5, 6], exF0_start, exStep1, rfl, by decide, .crash, fun _ => rfl, by decide, by decide⟩

/-- The view of blocks after the block of the example was mapped. -/
def exLifeView : OMap ViewEntry := OMap.empty.set (toBE 4 1)
  ⟨2, toBE 4 1, [⟨(newBlock exFiles (toBE 8 1) [5, 6] 1 0).header, exCodec.enc ⟨2, some 0⟩⟩], exCodec.enc ⟨2, some 0⟩⟩

theorem exLife2_blocks : exLife2.trees.docs exCfg.blocks =
    OMap.empty.set (toBE 8 1) (newBlock exFiles (toBE 8 1) [5, 6] 1 0) := rfl

/-- A view with one entry is up to date with one block. -/
theorem current_one (cfg : Cfg) (k : Codec) (hk : k.Lawful) (s : Schema) (bid c : Bytes) (fid : Nat) (hf : fid < 2 ^ 32)
    (ts : BitVec 64) (n : Nat) : Current (byFile cfg k)
      (OMap.empty.set (toBE 4 fid) ⟨n, toBE 4 fid, [⟨(newBlock s bid c fid ts).header, k.enc ⟨c.length, some ts⟩⟩],
        k.enc ⟨c.length, some ts⟩⟩)
      (OMap.empty.set bid (newBlock s bid c fid ts)) := by
  have hp : payload (newBlock s bid c fid ts) = c := payload_new _ _ _ _ _
  have ho : owner (newBlock s bid c fid ts) = fid := owner_new _ _ _ hf _
  have ht : stamp (newBlock s bid c fid ts) = ts := stamp_new _ _ _ _ _
  refine ⟨?_, ?_, ?_⟩
  · intro key e he
    rw [OMap.get_set] at he
    split at he
    · rename_i h; cases he; exact ⟨h, by simp, by simp⟩
    · cases he
  · intro key e he
    rw [OMap.get_set] at he
    split at he
    · cases he
      simp only [byFile, List.map_cons, List.map_nil, List.mapM_cons, List.mapM_nil, hk _]
      simp [reduceInfos, maxStamp]
    · cases he
  · intro id
    refine ⟨fun x hx => rfl, fun key => ?_⟩
    by_cases hi : id = bid
    · subst hi
      rw [OMap.get_set_self]
      unfold found
      rw [OMap.get_set]
      by_cases hkey : toBE 4 fid = key
      · subst hkey
        rw [if_pos rfl, (expect_byFile (x := ⟨(newBlock s id c fid ts).header, k.enc ⟨c.length, some ts⟩⟩)
          (by omega)).mpr ⟨ho, by rw [hp, ht]⟩]
        simp only [Option.bind_some, findId, List.find?_cons]
        rw [show decide ((newBlock s id c fid ts).header.id = id) = true from decide_eq_true rfl]
      · rw [if_neg hkey]
        simp [expect, byFile, lastValue, ho, hkey]
    · rw [OMap.get_set_ne _ (Ne.symm hi)]
      unfold found
      rw [OMap.get_set]
      split
      · simp only [Option.bind_some, findId, List.find?_cons]
        rw [show decide ((newBlock s bid c fid ts).header.id = id) = false from decide_eq_false fun e => hi e.symm]
        rfl
      · rfl

theorem exLifeView_current : Current (byFile exCfg exCodec) exLifeView (exLife2.trees.docs exCfg.blocks) :=
  current_one exCfg exCodec exCodec_lawful exFiles (toBE 8 1) [5, 6] 1 (by decide) 0 2

/-- The database after the blocks were deleted. -/
def exLife3 : Db := (deleteBlocks exFiles exCfg exLifeView 1 2 exLife2).2

theorem exDel1 : deleteBlocks exFiles exCfg exLifeView (fromBE exH1.id) 2 exLife2 = (.ok 1, exLife3) := rfl

/-- A file with its contents: the hypotheses of the theorems are met by a calm execution. -/
theorem exCalm2 : FExec exFiles exCfg exFileCodec exCodec anyBytes Calm exF0
    ((exF0.put 0 (.creating exH1 [5, 6]) exLife1).put 0 .idle exLife2) := by
  refine .step (.step (.refl _) exStep1 trivial) exStep2 ?_
  rintro ⟨c, h, -, ⟨es, hc⟩ | hc⟩ <;>
  · simp only [FSys.put, exF0] at hc
    split at hc <;> cases hc

/-- **C53 is violated** by a crash between the two transactions of `delete`: the file is still there, its
contents are lost. -/
theorem C53_violated_crash_delete : ∃ σ₀ σ₁ σ₂ fid,
    FStart exCfg σ₀ ∧ FExec exFiles exCfg exFileCodec exCodec anyBytes Calm σ₀ σ₁ ∧
    getDoc σ₁.db exCfg.files (toBE 4 fid) ≠ none ∧ contents exCfg σ₁.db fid = [5, 6] ∧
    FExec exFiles exCfg exFileCodec exCodec anyBytes Calm σ₁ σ₂ ∧ (∀ c, σ₂.clients c = .idle) ∧
    getDoc σ₂.db exCfg.files (toBE 4 fid) ≠ none ∧ contents exCfg σ₂.db fid = [] := by
  refine ⟨exF0, _, _, 1, exF0_start, exCalm2, by decide, exLife2_contents,
    .step (.step (.step (.refl _) (.startDelete (c := 0) (h := exH1) (es := exLifeView) rfl rfl exLifeView_current) trivial)
      (.deleteBlocks (c := 0) (h := exH1) (es := exLifeView) rfl exDel1) trivial) .crash trivial,
    fun _ => rfl, by decide, by decide⟩

/-- The file was renamed by another handle. -/
def exRenamed : Db := (storeFile exFiles exCfg exFileCodec exH1 (exF 'b') 2 exLife2).2

/-- **C53 is violated** by `delete` with a handle that is out of date: it returns a conflict, the file stays, its
contents are lost. -/
theorem C53_violated_stale_handle :
    Current (byFile exCfg exCodec) exLifeView (exRenamed.trees.docs exCfg.blocks) ∧
    contents exCfg exRenamed 1 = [5, 6] ∧
    ∃ h' db', deleteFile exFiles exCfg exLifeView exH1 3 4 exRenamed = (.error (.conflict exCfg.files h'), db') ∧
      getDoc db' exCfg.files (toBE 4 1) ≠ none ∧ contents exCfg db' 1 = [] := by
  refine ⟨?_, by decide, _, (deleteFile exFiles exCfg exLifeView exH1 3 4 exRenamed).2, rfl, by decide, by decide⟩
  have : exRenamed.trees.docs exCfg.blocks = exLife2.trees.docs exCfg.blocks := rfl
  rw [this]
  exact exLifeView_current

/-- The file of `exLife1`, deleted. -/
def exGone : Db := (deleteDoc exFiles exCfg exH1 3 (deleteBlocks exFiles exCfg .empty 1 2 exLife2).2).2

/-- A new file. -/
def exNew : Db := (pushFile exFiles exCfg exFileCodec (exF 'c') 4 exGone).2

theorem exEmpty_current (db : Db) (h : ∀ id, (db.trees.docs exCfg.blocks).get id = none) :
    Current (byFile exCfg exCodec) .empty (db.trees.docs exCfg.blocks) := by
  refine ⟨fun _ _ h => (by cases h), fun _ _ h => (by cases h), fun id => ?_⟩
  rw [h]
  exact ⟨fun _ h => (by cases h), fun _ => rfl⟩

/-- **C53 is violated** when data is appended to a file while it is deleted: the data stays and a new file with
the same id shows it. -/
theorem C53_violated_new_file_shows_old_data : ∃ σ₀ σ₁ σ₂ fid,
    FStart exCfg σ₀ ∧ FExec exFiles exCfg exFileCodec exCodec anyBytes Always σ₀ σ₁ ∧
    -- the file was deleted, nobody is doing anything
    getDoc σ₁.db exCfg.files (toBE 4 fid) = none ∧ (∀ c, σ₁.clients c = .idle) ∧
    -- a client creates an empty file
    FStep exFiles exCfg exFileCodec exCodec anyBytes σ₁ .quiet σ₂ ∧
    getDoc σ₂.db exCfg.files (toBE 4 fid) ≠ none ∧ (∃ hd, σ₂.clients 0 = .creating hd [] ∧ fromBE hd.id = fid) ∧
    contents exCfg σ₂.db fid = [5, 6] := by
  refine ⟨exF0, ⟨exGone, fun _ => .idle⟩,
    (⟨exGone, fun _ => .idle⟩ : FSys).put 0 (.creating ⟨toBE 4 1, ⟨0, exFileCodec.enc (exF 'c')⟩⟩ []) exNew, 1,
    exF0_start, ?_, by decide, fun _ => rfl, ?_, by decide, ⟨_, rfl, by decide⟩, by decide⟩
  · refine .step (.step (.step (.step (.step (.step (.step (.refl _)
      (.push (c := 0) (b := ⟨none, ['a']⟩) (data := []) (md := []) rfl exNew1 exPush1) trivial)
      (.abandon 0) trivial)
      (.startDelete (c := 1) (h := exH1) (es := .empty) rfl rfl (exEmpty_current _ fun _ => rfl)) trivial)
      (.append (fid := 1) (data := [5, 6]) (by decide) (fun _ _ => trivial) exFill1) trivial)
      (.deleteBlocks (c := 1) (h := exH1) (es := .empty) (tid := 2) (n := 0) rfl rfl) trivial)
      (.deleteDoc (c := 1) (h := exH1) (tid := 3) (r := .ok ()) (db' := exGone) rfl rfl) trivial)
      .crash trivial
  · exact .push (c := 0) (b := ⟨none, ['c']⟩) (md := []) (now := 0) (f := exF 'c') (tid := 4) rfl rfl rfl

/-- The hypotheses of `C53_create_partial` and `C53_delete_partial` are met. -/
example : BlocksWF exCfg (exLife2.trees.docs exCfg.blocks) ∧ NoOrphans exCfg exLife2 ∧
    exH1.id.length = 4 ∧ (deleteFile exFiles exCfg exLifeView exH1 2 3 exLife2).1 = .ok () := by
  have hi := calm_inv exFiles_has (by decide) (start_inv (s := exFiles) (S := anyBytes) exF0_start) exCalm2
  exact ⟨hi.inv.wf, hi.noOrphans, rfl, rfl⟩

/-- The hypotheses of `C53_deleted_partial` and `C53_delete_spares_others` are met. -/
example : ∃ σ, FExec exFiles exCfg exFileCodec exCodec anyBytes Calm exF0 σ ∧ σ.clients 0 = .emptied exH1 ∧
    ∃ db', deleteDoc exFiles exCfg exH1 3 σ.db = (.ok (), db') := by
  exact ⟨_, .step (.step exCalm2 (.startDelete (c := 0) (h := exH1) (es := exLifeView) rfl rfl exLifeView_current)
    trivial) (.deleteBlocks (c := 0) (h := exH1) (es := exLifeView) rfl exDel1) trivial, rfl, _, rfl⟩

end Bonsai.Files
