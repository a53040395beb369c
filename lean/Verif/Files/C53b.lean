import Verif.Files.C53

/-!
# C53: every interleaving
-/
set_option linter.unusedSimpArgs false
set_option linter.unusedSectionVars false
set_option linter.unusedVariables false

namespace Bonsai.Files
open Bonsai Bonsai.Names Bonsai.Store Bonsai.Query

/-! ## Specification -/

/-- Every block belongs to a stored file. -/
def NoOrphans (cfg : Cfg) (db : Db) : Prop :=
  ∀ id d, (db.trees.docs cfg.blocks).get id = some d → (db.trees.docs cfg.files).get (toBE 4 (owner d)) ≠ none

/-- No block belongs to the file. -/
theorem contents_empty_iff {cfg : Cfg} {db : Db} (hwf : BlocksWF cfg (db.trees.docs cfg.blocks)) {fid : Nat} :
    contents cfg db fid = [] ↔ ∀ id d, (db.trees.docs cfg.blocks).get id = some d → owner d ≠ fid := by
  unfold contents bytesOf
  rw [List.flatMap_eq_nil_iff]
  constructor
  · intro h id d hd ho
    exact (hwf id d hd).2.2.2.1 (h d (mem_blocksOf.mpr ⟨ho, id, hd⟩))
  · intro h d hd
    obtain ⟨ho, id, hg⟩ := mem_blocksOf.mp hd
    exact absurd ho (h id d hg)

theorem blocks_shrink_wf {cfg : Cfg} {m m' : OMap Document} (h : BlocksWF cfg m)
    (hs : ∀ id d, m'.get id = some d → m.get id = some d) : BlocksWF cfg m' :=
  fun id d hd => h id d (hs id d hd)

/-! ## What a step does -/

/-- What every step does to blocks and files. -/
structure StepFacts (s : Schema) (cfg : Cfg) (S : Bytes → Prop) (db : Db) (l : Label) (db' : Db) : Prop where
  wf : BlocksWF cfg (db'.trees.docs cfg.blocks)
  /-- Blocks appear only by appending, to a file that is stored. -/
  new : ∀ id d, (db'.trees.docs cfg.blocks).get id = some d → (db.trees.docs cfg.blocks).get id = some d ∨
    (l = .appends (owner d) ∧ (db.trees.docs cfg.files).get (toBE 4 (owner d)) ≠ none ∧
      d.header.revision.sha = s.digest d.contents ∧ S d.contents)

/-- What is known of a client. -/
def PhaseInv (s : Schema) (cfg : Cfg) (S : Bytes → Prop) (db : Db) : Phase → Prop
  | .idle => True
  | .creating h _ => h.id.length = 4
  | .deleting h es => h.id.length = 4 ∧ ViewWF es ∧
      (∀ id m, found es (toBE 4 (fromBE h.id)) id = some m →
        ∃ d : Document, d.header = m.source ∧ owner d = fromBE h.id ∧ d.header.revision.sha = s.digest d.contents ∧
          S d.contents)
  | .emptied h => h.id.length = 4

/-- What holds under any schedule. -/
structure FInv (s : Schema) (cfg : Cfg) (S : Bytes → Prop) (σ : FSys) : Prop where
  wf : BlocksWF cfg (σ.db.trees.docs cfg.blocks)
  sha : ∀ id d, (σ.db.trees.docs cfg.blocks).get id = some d →
    d.header.revision.sha = s.digest d.contents ∧ S d.contents
  phases : ∀ c, PhaseInv s cfg S σ.db (σ.clients c)

theorem phases_put {s : Schema} {cfg : Cfg} {S : Bytes → Prop} {σ : FSys} {db' : Db} {c : Nat} {p : Phase}
    (h : ∀ c, PhaseInv s cfg S σ.db (σ.clients c)) (hp : PhaseInv s cfg S db' p) :
    ∀ c', PhaseInv s cfg S db' ((σ.put c p db').clients c') := by
  intro c'
  simp only [FSys.put]
  split
  · exact hp
  · have := h c'
    revert this
    cases σ.clients c' <;> exact id

/-- One step. -/
theorem step_facts {s : Schema} {cfg : Cfg} (hs : HasFiles s cfg) (hz : 0 < cfg.size) {kf : FileCodec} {kb : Codec}
    {S : Bytes → Prop} {σ σ' : FSys} {l : Label} (hi : FInv s cfg S σ) (h : FStep s cfg kf kb S σ l σ') :
    FInv s cfg S σ' ∧ StepFacts s cfg S σ.db l σ'.db := by
  have mk : ∀ {σ' : FSys} {l : Label}, StepFacts s cfg S σ.db l σ'.db → (∀ c, PhaseInv s cfg S σ'.db (σ'.clients c)) →
      FInv s cfg S σ' ∧ StepFacts s cfg S σ.db l σ'.db := by
    intro σ' l hf hp
    refine ⟨⟨hf.wf, ?_, hp⟩, hf⟩
    intro id d hd
    rcases hf.new id d hd with h | ⟨_, _, h1, h2⟩
    · exact hi.sha id d h
    · exact ⟨h1, h2⟩
  have same : ∀ {db' : Db} {l : Label}, (∀ id d, (db'.trees.docs cfg.blocks).get id = some d →
      (σ.db.trees.docs cfg.blocks).get id = some d) → StepFacts s cfg S σ.db l db' :=
    fun h => ⟨blocks_shrink_wf hi.wf h, fun id d hd => .inl (h id d hd)⟩
  have keep : ∀ {db' : Db}, ∀ c, PhaseInv s cfg S db' (σ.clients c) := by
    intro db' c
    have := hi.phases c
    revert this
    cases σ.clients c <;> exact id
  cases h with
  | push hc hn hp =>
    obtain ⟨-, -, -, hfr⟩ := pushFile_ok hs hp
    refine mk (same fun id d hd => ?_) (phases_put hi.phases (push_id hs hp))
    rw [← hfr cfg.blocks id fun e => hs.apart e.1.symm]
    exact hd
  | pushFails hp =>
    cases pushFile_err hs hp
    exact mk (same fun _ _ h => h) keep
  | fill hc hS ha =>
    rename_i c h data now tid r db'
    have hid : h.id.length = 4 := by have := hi.phases c; rw [hc] at this; exact this
    obtain ⟨h1, h2, h3⟩ := append_new hs hz (fromBE_lt4 hid) hi.wf hS ha
    refine mk ⟨h1, fun id d hd => ?_⟩ (phases_put hi.phases trivial)
    rcases h3 id d hd with h | ⟨ho, hr⟩
    · exact .inl h
    · exact .inr ⟨by rw [ho], by rw [ho]; exact hr⟩
  | append hf hS ha =>
    obtain ⟨h1, h2, h3⟩ := append_new hs hz hf hi.wf hS ha
    refine mk ⟨h1, fun id d hd => ?_⟩ keep
    rcases h3 id d hd with h | ⟨ho, hr⟩
    · exact .inl h
    · exact .inr ⟨by rw [ho], by rw [ho]; exact hr⟩
  | truncate ht => exact mk (same (truncate_shrinks hs ht).2) keep
  | store hp =>
    refine mk (same fun id d hd => ?_) keep
    rw [← (storeFile_keeps hs hp).1]
    exact hd
  | startDelete hc hid he =>
    rename_i c h es
    refine mk (same fun _ _ h => h) (phases_put hi.phases ⟨hid, he.1, ?_⟩)
    intro id m hm
    have hsh := (he.2.2 id).2 (toBE 4 (fromBE h.id))
    rw [hm] at hsh
    cases hg : (σ.db.trees.docs cfg.blocks).get id with
    | none => rw [hg] at hsh; simp [expect] at hsh
    | some d =>
      rw [hg] at hsh
      obtain ⟨ho, rfl⟩ := (expect_byFile (by have := fromBE_lt4 hid; omega)).mp hsh.symm
      exact ⟨d, rfl, ho, hi.sha id d hg⟩
  | deleteBlocks hc hd =>
    rename_i c h es tid n db'
    have hp := hi.phases c
    rw [hc] at hp
    obtain ⟨hid, hwf, -⟩ := hp
    obtain ⟨-, h2, h3, -⟩ := deleteBlocks_ok hs hwf hd
    refine mk (same fun id d hg => ?_) (phases_put hi.phases hid)
    cases hf : (found es (toBE 4 (fromBE h.id)) id).isSome with
    | true =>
      have hn : ((σ.put c (.emptied h) db').db.trees.docs cfg.blocks).get id = none := h2 id hf
      rw [hn] at hg
      cases hg
    | false => rw [← h3 id hf]; exact hg
  | deleteBlocksFails hc hd =>
    cases deleteBlocks_err hd
    exact mk (same fun _ _ h => h) (phases_put hi.phases trivial)
  | deleteDoc hc hd =>
    rename_i c h tid r db'
    refine mk (same fun id d hg => ?_) (phases_put hi.phases trivial)
    have hg' : (db'.trees.docs cfg.blocks).get id = some d := hg
    cases r with
    | error e => rw [deleteDoc_err hd] at hg'; exact hg'
    | ok _ =>
      rw [(deleteDoc_ok hd).2, if_neg (fun e => hs.apart e.1.symm)] at hg'
      exact hg'
  | other h1 h2 =>
    refine mk (same fun id d hd => ?_) keep
    rw [← apply_frame h2]
    exact hd
  | abandon c => exact mk (same fun _ _ h => h) (phases_put hi.phases trivial)
  | crash => exact mk (same fun _ _ h => h) fun _ => trivial

/-- What is known of a deleting client when nothing is appended to the file it deletes. -/
def CalmPhase (cfg : Cfg) (db : Db) : Phase → Prop
  | .deleting h es => ∀ id d, (db.trees.docs cfg.blocks).get id = some d → owner d = fromBE h.id →
      (found es (toBE 4 (fromBE h.id)) id).isSome
  | .emptied h => ∀ id d, (db.trees.docs cfg.blocks).get id = some d → owner d ≠ fromBE h.id
  | _ => True

/-- What holds under calm schedules. -/
structure CalmInv (s : Schema) (cfg : Cfg) (S : Bytes → Prop) (σ : FSys) : Prop where
  inv : FInv s cfg S σ
  noOrphans : NoOrphans cfg σ.db
  calm : ∀ c, CalmPhase cfg σ.db (σ.clients c)

theorem calm_step {s : Schema} {cfg : Cfg} (hs : HasFiles s cfg) (hz : 0 < cfg.size) {kf : FileCodec} {kb : Codec}
    {S : Bytes → Prop} {σ σ' : FSys} {l : Label} (hi : CalmInv s cfg S σ) (h : FStep s cfg kf kb S σ l σ')
    (hcalm : Calm σ l) : CalmInv s cfg S σ' := by
  obtain ⟨hinv', hf⟩ := step_facts hs hz hi.inv h
  -- phases that stay
  have stay : ∀ c, CalmPhase cfg σ'.db (σ.clients c) := by
    intro c
    have hc := hi.calm c
    have key : ∀ (h : Header), ((∃ es, σ.clients c = .deleting h es) ∨ σ.clients c = .emptied h) →
        ∀ id d, (σ'.db.trees.docs cfg.blocks).get id = some d → owner d = fromBE h.id →
          (σ.db.trees.docs cfg.blocks).get id = some d := by
      intro hh hp id d hd ho
      rcases hf.new id d hd with h' | ⟨rfl, -⟩
      · exact h'
      · exact absurd ⟨c, hh, ho.symm, hp⟩ hcalm
    revert hc key
    cases σ.clients c with
    | idle => intro _ _; trivial
    | creating _ _ => intro _ _; trivial
    | deleting h es => exact fun hc key id d hd ho => hc id d (key h (.inl ⟨es, rfl⟩) id d hd ho) ho
    | emptied h => exact fun hc key id d hd ho => hc id d (key h (.inr rfl) id d hd ho) ho
  have put : ∀ c p, CalmPhase cfg σ'.db p → ∀ c', CalmPhase cfg σ'.db (if c' = c then p else σ.clients c') := by
    intro c p hp c'
    split
    · exact hp
    · exact stay c'
  -- orphans when no file is deleted
  have orphans : (∀ id, (σ.db.trees.docs cfg.files).get id ≠ none → (σ'.db.trees.docs cfg.files).get id ≠ none) →
      NoOrphans cfg σ'.db := by
    intro hk id d hd
    rcases hf.new id d hd with h' | ⟨_, h', _⟩
    · exact hk _ (hi.noOrphans id d h')
    · exact hk _ h'
  cases h with
  | push hc hn hp =>
    obtain ⟨-, -, hself, hfr⟩ := pushFile_ok hs hp
    rename_i c b data md now f tid h db'
    refine ⟨hinv', orphans fun id hid => ?_, put _ _ trivial⟩
    show (db'.trees.docs cfg.files).get id ≠ none
    by_cases e : id = h.id
    · rw [e, hself]; simp
    · rw [hfr _ _ fun x => e x.2]; exact hid
  | pushFails hp => cases pushFile_err hs hp; exact ⟨hinv', orphans fun _ h => h, stay⟩
  | fill hc hS ha =>
    rename_i c h data now tid r db'
    have hid : h.id.length = 4 := by have := hi.inv.phases c; rw [hc] at this; exact this
    refine ⟨hinv', orphans fun id hid' => ?_, put _ _ trivial⟩
    show (db'.trees.docs cfg.files).get id ≠ none
    rw [(append_new hs hz (fromBE_lt4 hid) hi.inv.wf hS ha).2.1]; exact hid'
  | append hf' hS ha =>
    rename_i fid data now tid r db'
    refine ⟨hinv', orphans fun id hid' => ?_, stay⟩
    show (db'.trees.docs cfg.files).get id ≠ none
    rw [(append_new hs hz hf' hi.inv.wf hS ha).2.1]; exact hid'
  | truncate ht =>
    rename_i blocks n from_ tid r db'
    refine ⟨hinv', orphans fun id hid' => ?_, stay⟩
    show (db'.trees.docs cfg.files).get id ≠ none
    rw [(truncate_shrinks hs ht).1]; exact hid'
  | store hp => exact ⟨hinv', orphans (storeFile_keeps hs hp).2, stay⟩
  | startDelete hc hid he =>
    rename_i c h es
    refine ⟨hinv', orphans fun _ h => h, put _ _ ?_⟩
    intro id d hd ho
    have hsh := (he.2.2 id).2 (toBE 4 (fromBE h.id))
    have hd' : (σ.db.trees.docs cfg.blocks).get id = some d := hd
    rw [hd', (expect_byFile (by have := fromBE_lt4 hid; omega)).mpr ⟨ho, rfl⟩] at hsh
    rw [hsh]; rfl
  | deleteBlocks hc hd =>
    rename_i c h es tid n db'
    have hp := hi.inv.phases c
    rw [hc] at hp
    obtain ⟨hid, hwf, -⟩ := hp
    have hca := hi.calm c
    rw [hc] at hca
    obtain ⟨h1, h2, h3, -⟩ := deleteBlocks_ok hs hwf hd
    refine ⟨hinv', orphans fun id hid' => ?_, put _ _ ?_⟩
    · show (db'.trees.docs cfg.files).get id ≠ none
      rw [h1]; exact hid'
    · intro id d hg ho
      rcases hf.new id d hg with h' | ⟨e, -⟩
      · have := h2 id (hca id d h' ho)
        have hg' : (db'.trees.docs cfg.blocks).get id = some d := hg
        rw [this] at hg'
        cases hg'
      · cases e
  | deleteBlocksFails hc hd =>
    cases deleteBlocks_err hd
    exact ⟨hinv', orphans fun _ h => h, put _ _ trivial⟩
  | deleteDoc hc hd =>
    rename_i c h tid r db'
    have hid : h.id.length = 4 := by have := hi.inv.phases c; rw [hc] at this; exact this
    have hca := hi.calm c
    rw [hc] at hca
    cases r with
    | error e => cases deleteDoc_err hd; exact ⟨hinv', orphans fun _ h => h, put _ _ trivial⟩
    | ok _ =>
      have hg := (deleteDoc_ok hd).2
      refine ⟨hinv', ?_, put _ _ trivial⟩
      intro id d hd'
      have hd'' : (db'.trees.docs cfg.blocks).get id = some d := hd'
      rw [hg, if_neg (fun e => hs.apart e.1.symm)] at hd''
      show (db'.trees.docs cfg.files).get (toBE 4 (owner d)) ≠ none
      rw [hg, if_neg]
      · exact hi.noOrphans id d hd''
      · rintro ⟨-, e⟩
        refine hca id d hd'' ?_
        rw [← e, fromBE_toBE (by have := owner_lt d; omega)]
  | other h1 h2 =>
    refine ⟨hinv', orphans fun id hid => ?_, stay⟩
    show ((applyToRoots _ _ _ _).2.trees.docs cfg.files).get id ≠ none
    rw [apply_frame h1]; exact hid
  | abandon c => exact ⟨hinv', orphans fun _ h => h, put _ _ trivial⟩
  | crash => exact ⟨hinv', orphans fun _ h => h, fun _ => trivial⟩

theorem start_inv {s : Schema} {cfg : Cfg} {S : Bytes → Prop} {σ : FSys} (h : FStart cfg σ) : CalmInv s cfg S σ := by
  obtain ⟨-, h2, h3⟩ := h
  have hn : ∀ id d, (σ.db.trees.docs cfg.blocks).get id = some d → False := by
    intro id d hd; rw [h2] at hd; cases hd
  exact ⟨⟨fun id d hd => (hn id d hd).elim, fun id d hd => (hn id d hd).elim, fun c => by rw [h3]; trivial⟩,
    fun id d hd => (hn id d hd).elim, fun c => by rw [h3]; trivial⟩

theorem exec_inv {s : Schema} {cfg : Cfg} (hs : HasFiles s cfg) (hz : 0 < cfg.size) {kf : FileCodec} {kb : Codec}
    {S : Bytes → Prop} {P : FSys → Label → Prop} {σ σ' : FSys} (hi : FInv s cfg S σ)
    (h : FExec s cfg kf kb S P σ σ') : FInv s cfg S σ' := by
  induction h with
  | refl => exact hi
  | step _ hstep _ ih => exact (step_facts hs hz ih hstep).1

theorem calm_inv {s : Schema} {cfg : Cfg} (hs : HasFiles s cfg) (hz : 0 < cfg.size) {kf : FileCodec} {kb : Codec}
    {S : Bytes → Prop} {σ σ' : FSys} (hi : CalmInv s cfg S σ) (h : FExec s cfg kf kb S Calm σ σ') :
    CalmInv s cfg S σ' := by
  induction h with
  | refl => exact hi
  | step _ hstep hp ih => exact calm_step hs hz ih hstep hp

/-! ## The property -/

/-- **C53** (partial: appending to a file while it is deleted is excluded).  After every interleaving of creations,
appends, truncations, renames, deletions and crashes, every block belongs to a stored file. -/
theorem C53_no_orphans_partial (s : Schema) (cfg : Cfg) (hs : HasFiles s cfg) (hz : 0 < cfg.size) (kf : FileCodec)
    (kb : Codec) (S : Bytes → Prop) (σ₀ σ : FSys) (h0 : FStart cfg σ₀) (h : FExec s cfg kf kb S Calm σ₀ σ) :
    NoOrphans cfg σ.db :=
  (calm_inv hs hz (start_inv h0) h).noOrphans

/-- **C53** (partial: as above).  A new file is empty: it shows no data of a file that was deleted. -/
theorem C53_new_file_is_empty_partial (s : Schema) (cfg : Cfg) (hs : HasFiles s cfg) (hz : 0 < cfg.size) (kf : FileCodec)
    (kb : Codec) (S : Bytes → Prop) (σ₀ σ : FSys) (h0 : FStart cfg σ₀) (h : FExec s cfg kf kb S Calm σ₀ σ)
    (f : FileRec) (tid : Nat) (hd : Header) (db' : Db) (hp : pushFile s cfg kf f tid σ.db = (.ok hd, db')) :
    contents cfg db' (fromBE hd.id) = [] ∧
    ∀ g, contents cfg db' g = contents cfg σ.db g := by
  have hi := calm_inv hs hz (start_inv h0) h
  obtain ⟨-, hnone, -, hfr⟩ := pushFile_ok hs hp
  have hb : db'.trees.docs cfg.blocks = σ.db.trees.docs cfg.blocks :=
    OMap.ext_get fun id => hfr _ _ fun e => hs.apart e.1.symm
  refine ⟨?_, fun g => by unfold contents; rw [hb]⟩
  have hwf : BlocksWF cfg (db'.trees.docs cfg.blocks) := by rw [hb]; exact hi.inv.wf
  rw [contents_empty_iff hwf, hb]
  intro id d hd' ho
  refine hi.noOrphans id d hd' ?_
  rw [ho, be4 (push_id hs hp)]
  exact hnone

/-- Nothing is appended to the file. -/
def NoAppend (fid : Nat) (σ : FSys) (l : Label) : Prop := Calm σ l ∧ l ≠ .appends fid

theorem stays_empty {s : Schema} {cfg : Cfg} (hs : HasFiles s cfg) (hz : 0 < cfg.size) {kf : FileCodec} {kb : Codec}
    {S : Bytes → Prop} {fid : Nat} {σ σ' : FSys} (hi : FInv s cfg S σ) (he : contents cfg σ.db fid = [])
    (h : FExec s cfg kf kb S (NoAppend fid) σ σ') : contents cfg σ'.db fid = [] := by
  induction h with
  | refl => exact he
  | step h' hstep hp ih =>
    have hi1 := exec_inv hs hz hi h'
    obtain ⟨hi2, hf⟩ := step_facts hs hz hi1 hstep
    rw [contents_empty_iff hi1.wf] at ih
    rw [contents_empty_iff hi2.wf]
    intro id d hd ho
    rcases hf.new id d hd with h | ⟨e, -⟩
    · exact ih id d h ho
    · exact hp.2 (by rw [e, ho])

/-- **C53** (partial: as above).  When `create` returns, the file has exactly the data given, whatever other
clients did between its two transactions, as long as they did not append to the same file. -/
theorem C53_created_with_its_contents_partial (s : Schema) (cfg : Cfg) (hs : HasFiles s cfg) (hz : 0 < cfg.size)
    (kf : FileCodec) (kb : Codec) (S : Bytes → Prop) (σ₀ σ σ₁ : FSys) (h0 : FStart cfg σ₀)
    (h : FExec s cfg kf kb S Calm σ₀ σ) (c : Nat) (f : FileRec) (data : Bytes) (tid : Nat) (hd : Header) (db₁ : Db)
    (hp : pushFile s cfg kf f tid σ.db = (.ok hd, db₁))
    (he : FExec s cfg kf kb S (NoAppend (fromBE hd.id)) (σ.put c (.creating hd data) db₁) σ₁)
    (now : BitVec 64) (tid' : Nat) (db₂ : Db) (ha : append s cfg data (fromBE hd.id) now tid' σ₁.db = (.ok (), db₂)) :
    contents cfg db₂ (fromBE hd.id) = data ∧
    ∀ g, g ≠ fromBE hd.id → contents cfg db₂ g = contents cfg σ₁.db g := by
  have hi := (calm_inv hs hz (start_inv (S := S) h0) h).inv
  have hemp := (C53_new_file_is_empty_partial s cfg hs hz kf kb S σ₀ σ h0 h f tid hd db₁ hp).1
  have hi1 : FInv s cfg S (σ.put c (.creating hd data) db₁) := by
    obtain ⟨-, -, -, hfr⟩ := pushFile_ok hs hp
    have hb : db₁.trees.docs cfg.blocks = σ.db.trees.docs cfg.blocks :=
      OMap.ext_get fun id => hfr _ _ fun e => hs.apart e.1.symm
    refine ⟨?_, ?_, phases_put hi.phases (push_id hs hp)⟩
    · show BlocksWF cfg (db₁.trees.docs cfg.blocks)
      rw [hb]; exact hi.wf
    · intro id d hg
      have hg' : (db₁.trees.docs cfg.blocks).get id = some d := hg
      rw [hb] at hg'
      exact hi.sha id d hg'
  have hempty := stays_empty hs hz hi1 hemp he
  have hi2 := exec_inv hs hz hi1 he
  obtain ⟨h1, h2, -⟩ := C50_append s cfg hs hz _ _ hi2.wf data _ (fromBE_lt4 (push_id hs hp)) now tid' ha
  rw [hempty, List.nil_append] at h1
  exact ⟨h1, h2⟩

/-- **C53** (partial: as above).  When `delete` returns, the file and all of its data are gone. -/
theorem C53_deleted_partial (s : Schema) (cfg : Cfg) (hs : HasFiles s cfg) (hz : 0 < cfg.size) (kf : FileCodec)
    (kb : Codec) (S : Bytes → Prop) (σ₀ σ : FSys) (h0 : FStart cfg σ₀) (h : FExec s cfg kf kb S Calm σ₀ σ)
    (c : Nat) (hd : Header) (hc : σ.clients c = .emptied hd) (tid : Nat) (db' : Db)
    (hdel : deleteDoc s cfg hd tid σ.db = (.ok (), db')) :
    contents cfg db' (fromBE hd.id) = [] ∧ (db'.trees.docs cfg.files).get hd.id = none ∧
    (∀ id, id ≠ hd.id → (db'.trees.docs cfg.files).get id = (σ.db.trees.docs cfg.files).get id) ∧
    ∀ g, contents cfg db' g = contents cfg σ.db g := by
  have hi := calm_inv hs hz (start_inv (S := S) h0) h
  have hg := (deleteDoc_ok hdel).2
  have hb : db'.trees.docs cfg.blocks = σ.db.trees.docs cfg.blocks :=
    OMap.ext_get fun id => by rw [hg, if_neg fun e => hs.apart e.1.symm]
  have hcon : ∀ g, contents cfg db' g = contents cfg σ.db g := fun g => by unfold contents; rw [hb]
  refine ⟨?_, by rw [hg]; simp, fun id hid => by rw [hg, if_neg fun e => hid e.2], hcon⟩
  rw [hcon, contents_empty_iff hi.inv.wf]
  have := hi.calm c
  rw [hc] at this
  exact this

/-- Two lists sorted by distinct ids with the same members are equal. -/
theorem sorted_docs_ext : ∀ {l m : List Document},
    l.Pairwise (fun a b => a.header.id < b.header.id) → m.Pairwise (fun a b => a.header.id < b.header.id) →
    (∀ b, b ∈ l ↔ b ∈ m) → l = m
  | [], [], _, _, _ => rfl
  | [], b :: m, _, _, h => by have := (h b).mpr (by simp); cases this
  | a :: l, [], _, _, h => by have := (h a).mp (by simp); cases this
  | a :: l, b :: m, hl, hm, h => by
    rw [List.pairwise_cons] at hl hm
    have hab : a = b := by
      rcases List.mem_cons.mp ((h a).mp (by simp)) with e | ha
      · exact e
      · rcases List.mem_cons.mp ((h b).mpr (by simp)) with e | hb
        · exact e.symm
        · exact absurd (hm.1 a ha) (bytes_lt_asymm (hl.1 b hb))
    subst hab
    rw [sorted_docs_ext hl.2 hm.2]
    intro x
    constructor
    · intro hx
      rcases List.mem_cons.mp ((h x).mp (by simp [hx])) with rfl | hx'
      · exact absurd (hl.1 x hx) (bytes_lt_irrefl _)
      · exact hx'
    · intro hx
      rcases List.mem_cons.mp ((h x).mpr (by simp [hx])) with rfl | hx'
      · exact absurd (hm.1 x hx) (bytes_lt_irrefl _)
      · exact hx'

/-- **C53**: under every schedule, deleting a file removes data of this file only (no two contents of blocks
have the same digest). -/
theorem C53_delete_spares_others (s : Schema) (cfg : Cfg) (hs : HasFiles s cfg) (hz : 0 < cfg.size) (kf : FileCodec)
    (kb : Codec) (S : Bytes → Prop) (hS : CollisionFree s.digest S) (σ₀ σ : FSys) (h0 : FStart cfg σ₀)
    (h : FExec s cfg kf kb S Always σ₀ σ) (c : Nat) (hd : Header) (es : OMap ViewEntry)
    (hc : σ.clients c = .deleting hd es) (tid n : Nat) (db' : Db)
    (hdel : deleteBlocks s cfg es (fromBE hd.id) tid σ.db = (.ok n, db')) :
    (∀ g, g ≠ fromBE hd.id → contents cfg db' g = contents cfg σ.db g) ∧
    db'.trees.docs cfg.files = σ.db.trees.docs cfg.files := by
  have hi := exec_inv hs hz (start_inv (s := s) (S := S) h0).inv h
  have hp := hi.phases c
  rw [hc] at hp
  obtain ⟨hid, hwf, hsrc⟩ := hp
  obtain ⟨h1, h2, h3, h4⟩ := deleteBlocks_ok hs hwf hdel
  refine ⟨fun g hg => ?_, h1⟩
  have hget : ∀ id d, owner d = g → ((db'.trees.docs cfg.blocks).get id = some d ↔
      (σ.db.trees.docs cfg.blocks).get id = some d) := by
    intro id d ho
    cases hf : found es (toBE 4 (fromBE hd.id)) id with
    | none => rw [h3 id (by rw [hf]; rfl)]
    | some m =>
      rw [h2 id (by rw [hf]; rfl)]
      constructor
      · intro e; cases e
      · intro e
        exfalso
        have hhd := h4 id m hf
        rw [e] at hhd
        simp only [Option.map_some, Option.some.injEq] at hhd
        obtain ⟨d0, hd0, ho0, hsha0, hS0⟩ := hsrc id m hf
        obtain ⟨hsha, hSd⟩ := hi.sha id d e
        have hcont : d.contents = d0.contents := by
          refine hS _ _ hSd hS0 ?_
          rw [← hsha, ← hsha0, hd0, hhd]
        refine hg ?_
        rw [← ho, ← ho0]
        unfold owner
        rw [hcont]
  unfold contents bytesOf
  congr 1
  -- same sorted lists of blocks
  have hwf' : BlocksWF cfg (db'.trees.docs cfg.blocks) := blocks_shrink_wf hi.wf fun id d hg' => by
    cases hf : (found es (toBE 4 (fromBE hd.id)) id).isSome with
    | true => rw [h2 id hf] at hg'; cases hg'
    | false => rw [← h3 id hf]; exact hg'
  refine sorted_docs_ext (blocksOf_sorted hwf' g) (blocksOf_sorted hi.wf g) fun d => ?_
  rw [mem_blocksOf, mem_blocksOf]
  constructor
  · rintro ⟨ho, id, hg'⟩; exact ⟨ho, id, (hget id d ho).mp hg'⟩
  · rintro ⟨ho, id, hg'⟩; exact ⟨ho, id, (hget id d ho).mpr hg'⟩

end Bonsai.Files
