import Verif.Files.Life

/-!
# C53: creating and deleting files
-/
set_option linter.unusedSimpArgs false
set_option linter.unusedSectionVars false

namespace Bonsai.Files
open Bonsai Bonsai.Names Bonsai.Store Bonsai.Query

/-! ## The transactions -/

theorem apply_err {s : Schema} {db db' : Db} {tid : Nat} {ops : List Operation} {e : Err}
    (h : applyToRoots s db tid ops = (.error e, db')) : db' = db := by
  unfold applyToRoots at h
  split at h <;> cases h
  rfl

theorem apply_ok {s : Schema} {db db' : Db} {tid : Nat} {ops : List Operation} {rs : List OpResult}
    (h : applyToRoots s db tid ops = (.ok rs, db')) :
    ∃ t ch, runOps s db.trees ⟨[], []⟩ ops = .ok (t, ch, rs) ∧ db'.trees.docs = t.docs := by
  unfold applyToRoots at h
  split at h
  · cases h
  · rename_i hp
    cases h
    unfold prepare at hp
    split at hp
    · split at hp
      · cases hp
      · rename_i hr
        cases hp
        exact ⟨_, _, hr, by rw [invalidateChanged_docs]⟩
    · cases hp

/-- A transaction of deletions. -/
theorem deletes_ok {s : Schema} {c : QName} {hs : List Header} {db db' : Db} {tid : Nat} {rs : List OpResult}
    (h : applyToRoots s db tid (hs.map fun h => ⟨c, .delete h⟩) = (.ok rs, db')) :
    ∀ c' id, (db'.trees.docs c').get id =
      if c' = c ∧ id ∈ hs.map (·.id) then none else (db.trees.docs c').get id := by
  obtain ⟨t, ch, hr, hd⟩ := apply_ok h
  have := (runOps_deletes hr).2.2.2
  intro c' id
  rw [hd]
  exact this c' id

theorem fromBE_lt4 {b : Bytes} (h : b.length = 4) : fromBE b < 2 ^ 32 := by
  have := fromBE_lt b
  rw [h] at this
  omega

theorem be4 {b : Bytes} (h : b.length = 4) : toBE 4 (fromBE b) = b := by
  have := toBE_fromBE b
  rwa [h] at this

/-- The id of a new file is a `u32`. -/
theorem push_id {s : Schema} {cfg : Cfg} (hs : HasFiles s cfg) {k : FileCodec} {f : FileRec} {tid : Nat} {db db' : Db}
    {h : Header} (hp : pushFile s cfg k f tid db = (.ok h, db')) : h.id.length = 4 := by
  obtain ⟨⟨rs, happ⟩, hnone, hsome, hframe⟩ := pushFile_ok hs hp
  have hnext : ∀ l i, s.nextId cfg.files l = some i → i.length = 4 := by
    intro l i hi
    rw [hs.fileIds] at hi
    unfold keyNextId at hi
    simp only [Option.bind_eq_some_iff, uintKey] at hi
    obtain ⟨v, -, b, hb, hi⟩ := hi
    cases hb
    split at hi
    · cases hi
      exact primEnc_length _
    · cases hi
  rcases apply_single (s := s) (db := db) (tid := tid) (op := ⟨cfg.files, .insert none (k.enc f)⟩) hs.filesKnown with
    ⟨t', r, ch, hex, happ'⟩ | ⟨e, hex, happ'⟩
  · unfold pushFile at hp
    rw [happ'] at hp
    simp only [execOp, execInsert, Option.orElse] at hex
    split at hex
    · cases hex
    · rename_i i hi
      split at hex
      · cases hex
      · split at hex
        · cases hex
        · rename_i hst
          cases hex
          cases hp
          exact hnext _ _ hi
  · rw [happ'] at happ
    cases happ

/-- What `append` does, whether it succeeds or not. -/
theorem append_new {s : Schema} {cfg : Cfg} (hs : HasFiles s cfg) (hz : 0 < cfg.size) {S : Bytes → Prop} {data : Bytes}
    {fid : Nat} (hf : fid < 2 ^ 32) {now : BitVec 64} {tid : Nat} {db db' : Db} {r : Except Err Unit}
    (hwf : BlocksWF cfg (db.trees.docs cfg.blocks)) (hS : ∀ x ∈ chunks cfg.size data, S (blockContents x fid now))
    (h : append s cfg data fid now tid db = (r, db')) :
    BlocksWF cfg (db'.trees.docs cfg.blocks) ∧ db'.trees.docs cfg.files = db.trees.docs cfg.files ∧
    ∀ id d, (db'.trees.docs cfg.blocks).get id = some d → (db.trees.docs cfg.blocks).get id = some d ∨
      (owner d = fid ∧ (db.trees.docs cfg.files).get (toBE 4 fid) ≠ none ∧
        d.header.revision.sha = s.digest d.contents ∧ S d.contents) := by
  obtain ⟨n, hn⟩ := idsTo_of_wf hwf
  rcases append_cases hs hz data fid now tid db hn with ⟨hd, he⟩ | ⟨_, _, he⟩ | ⟨_, _, _, e, he⟩ | ⟨_, hg, _, d', he, h1, h2⟩
  · rw [he] at h; cases h; exact ⟨hwf, rfl, fun _ _ h => .inl h⟩
  · rw [he] at h; cases h; exact ⟨hwf, rfl, fun _ _ h => .inl h⟩
  · rw [he] at h; cases h; exact ⟨hwf, rfl, fun _ _ h => .inl h⟩
  · rw [he] at h
    cases h
    refine ⟨wf_append hz hwf h1, (append_files hs he).1, ?_⟩
    intro id d hd
    have hm := OMap.mem_list_iff.mpr hd
    rw [h1, List.mem_append] at hm
    rcases hm with hm | hm
    · exact .inl (OMap.mem_list_iff.mp hm)
    · obtain ⟨i, c, -, -, hc, e⟩ := newBlocks_mem hm
      cases e
      exact .inr ⟨owner_new s _ _ hf _, hg, rfl, hS c hc⟩

/-- Truncations only remove blocks. -/
theorem truncate_shrinks {s : Schema} {cfg : Cfg} (hs : HasFiles s cfg) {blocks : List BlockInfo} {n : Nat} {from_ : Truncate}
    {tid : Nat} {db db' : Db} {r : Except Err Unit} (h : truncate s cfg blocks n from_ tid db = (r, db')) :
    db'.trees.docs cfg.files = db.trees.docs cfg.files ∧
    ∀ id d, (db'.trees.docs cfg.blocks).get id = some d → (db.trees.docs cfg.blocks).get id = some d := by
  unfold truncate truncateOps at h
  simp only at h
  generalize (if n ≤ (blocks.map (·.length)).sum then _ else _ : List Header) = hds at h
  generalize hr : applyToRoots s db tid (hds.map fun h => ⟨cfg.blocks, .delete h⟩) = res at h
  obtain ⟨res, db₁⟩ := res
  cases res with
  | error e => cases h; cases apply_err hr; exact ⟨rfl, fun _ _ h => h⟩
  | ok rs =>
    cases h
    have hd := deletes_ok hr
    refine ⟨?_, ?_⟩
    · have := apply_frame (s := s) (c := cfg.files) (ops := hds.map fun h => ⟨cfg.blocks, .delete h⟩)
        (by intro op hop; obtain ⟨_, _, rfl⟩ := List.mem_map.mp hop; exact hs.apart) db tid
      rw [hr] at this
      exact this
    · intro id d hg
      rw [hd] at hg
      split at hg
      · cases hg
      · exact hg

/-- The keys a match selects. -/
theorem selects_matches {key k : Bytes} : Selects (some (.matches_ key)) k ↔ k = key := Iff.rfl

/-- The first transaction of `delete`. -/
theorem deleteBlocks_ok {s : Schema} {cfg : Cfg} (hs : HasFiles s cfg) {es : OMap ViewEntry} (hwf : ViewWF es) {fid tid n : Nat}
    {db db' : Db} (h : deleteBlocks s cfg es fid tid db = (.ok n, db')) :
    db'.trees.docs cfg.files = db.trees.docs cfg.files ∧
    (∀ id, (found es (toBE 4 fid) id).isSome → (db'.trees.docs cfg.blocks).get id = none) ∧
    (∀ id, (found es (toBE 4 fid) id).isSome = false →
      (db'.trees.docs cfg.blocks).get id = (db.trees.docs cfg.blocks).get id) ∧
    (∀ id m, found es (toBE 4 fid) id = some m →
      ((db.trees.docs cfg.blocks).get id).map (·.header) = some m.source) := by
  obtain ⟨h1, h2, h3, -⟩ := C35_success_deletes_exactly s "" none cfg.blocks es hwf _ db db' tid n h
  refine ⟨OMap.ext_get fun id => h2 _ _ fun e => hs.apart e.1, ?_, ?_, ?_⟩
  · intro id hid
    exact (h1 id ⟨_, selects_matches.mpr rfl, hid⟩).2
  · intro id hid
    refine h2 _ _ ?_
    rintro ⟨-, k, hk, hf⟩
    rw [selects_matches.mp hk, hid] at hf
    cases hf
  · intro id m hm
    exact h3 id _ m (selects_matches.mpr rfl) hm

theorem deleteBlocks_err {s : Schema} {cfg : Cfg} {es : OMap ViewEntry} {fid tid : Nat} {e : Err} {db db' : Db}
    (h : deleteBlocks s cfg es fid tid db = (.error e, db')) : db' = db := by
  unfold deleteBlocks deleteDocs at h
  split at h
  · rename_i hr
    cases h
    unfold applyTransaction at hr
    split at hr
    · exact apply_err hr
    · cases hr; rfl
  · cases h

/-- The second transaction of `delete`. -/
theorem deleteDoc_ok {s : Schema} {cfg : Cfg} {h : Header} {tid : Nat} {db db' : Db}
    (hd : deleteDoc s cfg h tid db = (.ok (), db')) :
    (∃ d, (db.trees.docs cfg.files).get h.id = some d ∧ d.header = h) ∧
    ∀ c id, (db'.trees.docs c).get id = if c = cfg.files ∧ id = h.id then none else (db.trees.docs c).get id := by
  unfold deleteDoc at hd
  split at hd
  · cases hd
  · rename_i hr
    cases hd
    have h1 := deletes_ok (hs := [h]) hr
    obtain ⟨t, ch, hrun, -⟩ := apply_ok hr
    have h2 := (runOps_deletes (hs := [h]) hrun).2.2.1 h (by simp)
    refine ⟨h2, fun c id => ?_⟩
    rw [h1]
    simp

theorem deleteDoc_err {s : Schema} {cfg : Cfg} {h : Header} {tid : Nat} {e : Err} {db db' : Db}
    (hd : deleteDoc s cfg h tid db = (.error e, db')) : db' = db := by
  unfold deleteDoc at hd
  split at hd
  · rename_i hr; cases hd; exact apply_err hr
  · cases hd

theorem pushFile_err {s : Schema} {cfg : Cfg} (hs : HasFiles s cfg) {k : FileCodec} {f : FileRec} {tid : Nat} {db db' : Db}
    {e : FErr} (hp : pushFile s cfg k f tid db = (.error e, db')) : db' = db := by
  unfold pushFile at hp
  rcases apply_single (s := s) (db := db) (tid := tid) (op := ⟨cfg.files, .insert none (k.enc f)⟩) hs.filesKnown with
    ⟨t', r, ch, hex, happ⟩ | ⟨e, hex, happ⟩
  · rw [happ] at hp
    obtain ⟨h', rfl, -⟩ := C23_insert_starts_at_zero s _ _ cfg.files none _ r hex
    simp at hp
  · rw [happ] at hp
    simp at hp
    exact hp.2.symm

/-- Storing a file document again keeps the set of files and all blocks. -/
theorem storeFile_keeps {s : Schema} {cfg : Cfg} (hs : HasFiles s cfg) {k : FileCodec} {h : Header} {f : FileRec}
    {tid : Nat} {db db' : Db} {r : Except FErr Header} (hp : storeFile s cfg k h f tid db = (r, db')) :
    db'.trees.docs cfg.blocks = db.trees.docs cfg.blocks ∧
    ∀ id, (db.trees.docs cfg.files).get id ≠ none → (db'.trees.docs cfg.files).get id ≠ none := by
  have hdb : db' = (applyToRoots s db tid [⟨cfg.files, .update h (k.enc f)⟩]).2 := by
    unfold storeFile at hp
    split at hp <;> (rename_i hr; rw [hr]; cases hp; rfl)
  refine ⟨?_, ?_⟩
  · rw [hdb]
    exact apply_frame (by simp [hs.apart.symm]) _ _
  · intro id hid
    rcases apply_single (s := s) (db := db) (tid := tid) (op := ⟨cfg.files, .update h (k.enc f)⟩) hs.filesKnown with
      ⟨t', r, ch, hex, happ⟩ | ⟨e, hex, happ⟩
    · rw [happ] at hdb
      subst hdb
      rw [invalidateChanged_docs]
      simp only [execOp, execUpdate] at hex
      split at hex
      · cases hex
      · cases hex; exact hid
      · split at hex
        · cases hex
        · rename_i hst
          cases hex
          rw [(storeDoc_ok hst).1]
          simp only [get_upd, if_true, OMap.get_set]
          split
          · simp
          · exact hid
    · rw [happ] at hdb
      subst hdb
      exact hid
