import Verif.Files.C52b

/-!
# C52: from operations on the database to listings
-/
set_option linter.unusedSimpArgs false
set_option linter.unusedSectionVars false

namespace Bonsai.Files
open Bonsai Bonsai.Names Bonsai.Store Bonsai.Query

/-- A state any interleaving of transactions, mapping jobs, failures and restarts can reach from one in which the
view of paths is new and there were no files, or all were mapped. -/
def FilesReachable (s : Schema) (cfg : Cfg) (k : FileCodec) (σ : VSys) : Prop :=
  ∃ σ₀, VStart (byPath cfg k) σ₀ ∧ (∀ id, (σ₀.db.trees.invalidated (byPath cfg k).name).get id = none) ∧
    VExec s σ₀ σ

/-- The tree of the view of paths. -/
def pathEntries (cfg : Cfg) (k : FileCodec) (db : Db) : OMap ViewEntry := db.trees.entries (byPath cfg k).name

/-- **C52**: in every reachable state the view of paths is up to date and no two files have the same path. -/
theorem C52_view_current (s : Schema) (hdv : DistinctViews s) (cfg : Cfg) (k : FileCodec) (hv : byPath cfg k ∈ s.views)
    (σ : VSys) (hr : FilesReachable s cfg k σ) :
    UpToDate (byPath cfg k) (pathEntries cfg k σ.db) (σ.db.trees.docs cfg.files) ∧
    DistinctPaths k (σ.db.trees.docs cfg.files) := by
  obtain ⟨σ₀, hst, hnone, he⟩ := hr
  obtain ⟨hinv, _⟩ := vexec_inv hdv hv (vstart_inv hst) hst.known he
  have hmapped := eager_unmarked hdv hv (show (byPath cfg k).policy.isEager = true from rfl) hst hnone he
  have hu : UpToDate (byPath cfg k) (pathEntries cfg k σ.db) (σ.db.trees.docs cfg.files) :=
    ⟨hinv.view.1.1, fun id => hinv.view.2 id (hmapped id)⟩
  refine ⟨hu, ?_⟩
  have hc := (C30_unique_keys s hdv _ hv rfl σ₀ σ hst hnone he).1
  rintro h f h' f' hf hf' e1 e2
  obtain ⟨b, hb⟩ := key_of_file hu hf
  obtain ⟨id, d, hd, rfl, hdf⟩ := hf
  obtain ⟨id', d', hd', rfl, hdf'⟩ := hf'
  have hb' : keyBytes (container f') f'.name = some b := by rw [← e1, ← e2]; exact hb
  have hid : id = id' := by
    refine Decidable.not_not.mp fun hne => hc ⟨id, d, id', d', b, k.encValue (f.created, f.metadata),
      k.encValue (f'.created, f'.metadata), hne, hd, hd', ?_, ?_⟩
    · exact ⟨[(b, k.encValue (f.created, f.metadata))], by simp [byPath, hdf, hb], by simp⟩
    · exact ⟨[(b, k.encValue (f'.created, f'.metadata))], by simp [byPath, hdf', hb'], by simp⟩
  subst hid
  rw [hd] at hd'
  cases hd'
  rw [hdf] at hdf'
  cases hdf'
  exact ⟨rfl, rfl⟩

/-- A committed transaction is a step of the system. -/
theorem commit_exec {s : Schema} {σ : VSys} {tid : Nat} {ops : List Operation} {rs : List OpResult} {db' : Db}
    (h : applyToRoots s σ.db tid ops = (.ok rs, db')) (htid : σ.db.lastTid ≤ tid) :
    ∃ σ', VExec s σ σ' ∧ σ'.db = db' ∧ db'.lastTid = tid + 1 := by
  unfold applyToRoots at h
  split at h
  · cases h
  · rename_i hp
    cases h
    exact ⟨_, .step (.refl _) (.transaction hp htid), rfl, by simp [Db.lastTid]⟩

theorem FilesReachable.exec {s : Schema} {cfg : Cfg} {k : FileCodec} {σ σ' : VSys} (h : FilesReachable s cfg k σ)
    (he : VExec s σ σ') : FilesReachable s cfg k σ' := by
  obtain ⟨σ₀, h1, h2, h3⟩ := h
  exact ⟨σ₀, h1, h2, h3.trans he⟩

/-! ## Creating -/

/-- What the first transaction of `create` does. -/
theorem pushFile_ok {s : Schema} {cfg : Cfg} (hs : HasFiles s cfg) {k : FileCodec} {f : FileRec} {tid : Nat} {db db' : Db}
    {h : Header} (hp : pushFile s cfg k f tid db = (.ok h, db')) :
    (∃ rs, applyToRoots s db tid [⟨cfg.files, .insert none (k.enc f)⟩] = (.ok rs, db')) ∧
    (db.trees.docs cfg.files).get h.id = none ∧ (db'.trees.docs cfg.files).get h.id = some ⟨h, k.enc f⟩ ∧
    ∀ c id, ¬ (c = cfg.files ∧ id = h.id) → (db'.trees.docs c).get id = (db.trees.docs c).get id := by
  unfold pushFile at hp
  rcases apply_single (s := s) (db := db) (tid := tid) (op := ⟨cfg.files, .insert none (k.enc f)⟩) hs.filesKnown with
    ⟨t', r, ch, hex, happ⟩ | ⟨e, hex, happ⟩
  · rw [happ] at hp ⊢
    obtain ⟨h', rfl, -, -, h1, h2, h3⟩ := C23_insert_starts_at_zero s _ _ cfg.files none _ r hex
    simp only [Prod.mk.injEq, Except.ok.injEq] at hp
    obtain ⟨rfl, rfl⟩ := hp
    exact ⟨⟨_, rfl⟩, h1, h2, h3⟩
  · rw [happ] at hp
    simp at hp

/-- A document of `m` is the file `h`, `f`. -/
theorem isFile_of_get {k : FileCodec} (hk : k.Lawful) {m : OMap Document} {h : Header} {f : FileRec}
    (hg : m.get h.id = some ⟨h, k.enc f⟩) : IsFile k m h f := ⟨_, _, hg, rfl, hk.file f⟩

/-- Appending to a file does not touch file documents. -/
theorem append_files {s : Schema} {cfg : Cfg} (hs : HasFiles s cfg) {data : Bytes} {fid : Nat} {now : BitVec 64} {tid : Nat}
    {db db' : Db} (h : append s cfg data fid now tid db = (.ok (), db')) :
    db'.trees.docs cfg.files = db.trees.docs cfg.files ∧
      (db' = db ∨ ∃ rs ops, applyToRoots s db tid ops = (.ok rs, db')) := by
  unfold append at h
  split at h
  · cases h; exact ⟨rfl, .inl rfl⟩
  · split at h
    · cases h
    · generalize hr : applyToRoots s db tid (appendOps cfg data fid now) = r at h
      obtain ⟨r, db₁⟩ := r
      cases r with
      | error _ => cases h
      | ok rs =>
        cases h
        refine ⟨?_, .inr ⟨_, _, hr⟩⟩
        unfold applyToRoots at hr
        split at hr
        · cases hr
        · rename_i hp
          cases hr
          unfold prepare at hp
          split at hp
          · unfold appendOps at hp
            rw [runOps_check] at hp
            split at hp
            · cases hp
            · rename_i hq
              cases hp
              rw [invalidateChanged_docs]
              split at hq
              · cases hq
              · rename_i hq'
                split at hq
                · cases hq
                · rename_i hro
                  cases hq
                  refine runOps_frame ?_ hro
                  intro op hop
                  simp only [List.mem_map] at hop
                  obtain ⟨_, _, rfl⟩ := hop
                  exact hs.apart
          · cases hp

/-- **C52**: a file that was created is found by its path, and its path is the one `FileBuilder` documents
(`C52_created_path_partial`); all other files stay. -/
theorem C52_create_then_load (s : Schema) (hdv : DistinctViews s) (cfg : Cfg) (hs : HasFiles s cfg) (k : FileCodec)
    (hk : k.Lawful) (hv : byPath cfg k ∈ s.views) (σ : VSys) (hr : FilesReachable s cfg k σ) (b : Builder)
    (data md : Bytes) (now now' : BitVec 64) (tid tid' : Nat) (ht : σ.db.lastTid ≤ tid) (ht' : tid + 1 ≤ tid')
    (h : Header) (f : FileRec) (db' : Db)
    (hc : createFile s cfg k b data md now now' tid tid' σ.db = (.ok (h, f), db')) :
    newFile b now md = .ok f ∧
    find k (pathEntries cfg k db') (fullPath f) = .ok (some (h, canonical f)) ∧
    ∀ h' f', IsFile k (db'.trees.docs cfg.files) h' f' ↔
      (h' = h ∧ f' = f) ∨ IsFile k (σ.db.trees.docs cfg.files) h' f' := by
  unfold createFile at hc
  split at hc
  · cases hc
  rename_i f' hf
  split at hc
  · cases hc
  rename_i h' db₁ hp
  split at hc
  · cases hc
  rename_i db₂ ha
  cases hc
  obtain ⟨⟨rs, happ⟩, hnone, hget, hframe⟩ := pushFile_ok hs hp
  obtain ⟨σ₁, he1, rfl, hl1⟩ := commit_exec happ ht
  obtain ⟨hfiles, hstep⟩ := append_files hs ha
  have hr' : ∃ σ₂, VExec s σ₁ σ₂ ∧ σ₂.db = db' := by
    rcases hstep with rfl | ⟨rs, ops, happ'⟩
    · exact ⟨σ₁, .refl _, rfl⟩
    · obtain ⟨σ₂, he2, e, -⟩ := commit_exec happ' (by omega)
      exact ⟨σ₂, he2, e⟩
  obtain ⟨σ₂, he2, rfl⟩ := hr'
  obtain ⟨hu, hd⟩ := C52_view_current s hdv cfg k hv σ₂ ((hr.exec he1).exec he2)
  have hget' : (σ₂.db.trees.docs cfg.files).get h.id = some ⟨h, k.enc f⟩ := by rw [hfiles]; exact hget
  refine ⟨hf, (C52_load cfg k hk _ _ hu hd h f (isFile_of_get hk hget') (C52_names_stay_valid.1 _ _ _ _ hf)).1, ?_⟩
  rw [hfiles]
  intro h' f'
  constructor
  · rintro ⟨id, d, hg, rfl, hdf⟩
    by_cases e : id = h.id
    · subst e
      rw [hget] at hg
      cases hg
      rw [hk.file] at hdf
      cases hdf
      exact .inl ⟨rfl, rfl⟩
    · rw [hframe cfg.files id (fun x => e x.2)] at hg
      exact .inr ⟨id, d, hg, rfl, hdf⟩
  · rintro (⟨rfl, rfl⟩ | ⟨id, d, hg, rfl, hdf⟩)
    · exact isFile_of_get hk hget
    · refine ⟨id, d, ?_, rfl, hdf⟩
      rw [hframe cfg.files id]
      · exact hg
      · rintro ⟨-, rfl⟩
        rw [hnone] at hg
        cases hg

/-- **C52**: a file is created, when the name is valid, no file has its path, path and name fit into a key, and
there is a next id. -/
theorem C52_create_succeeds (s : Schema) (hdv : DistinctViews s) (cfg : Cfg) (hs : HasFiles s cfg) (k : FileCodec)
    (hk : k.Lawful) (hv : byPath cfg k ∈ s.views)
    (honly : ∀ v ∈ s.views, v.name.collection = cfg.files → v = byPath cfg k) (σ : VSys)
    (hr : FilesReachable s cfg k σ) (f : FileRec) (tid : Nat) (hkey : (keyBytes (container f) f.name).isSome)
    (hfree : ∀ h f', IsFile k (σ.db.trees.docs cfg.files) h f' → ¬ (container f' = container f ∧ f'.name = f.name))
    (i : Bytes) (hi : s.nextId cfg.files (σ.db.trees.docs cfg.files).lastKey = some i)
    (hig : (σ.db.trees.docs cfg.files).get i = none) :
    ∃ h db', pushFile s cfg k f tid σ.db = (.ok h, db') := by
  obtain ⟨b, hb⟩ := Option.isSome_iff_exists.mp hkey
  unfold pushFile
  rcases apply_single (s := s) (db := σ.db) (tid := tid) (op := ⟨cfg.files, .insert none (k.enc f)⟩) hs.filesKnown with
    ⟨t', r, ch, hex, happ⟩ | ⟨e, hex, happ⟩
  · rw [happ]
    obtain ⟨h', rfl, -⟩ := C23_insert_starts_at_zero s _ _ cfg.files none _ r hex
    exact ⟨h', _, rfl⟩
  · exfalso
    simp only [execOp, execInsert, Option.orElse, hi, hig] at hex
    split at hex
    · rename_i e' hst
      cases hex
      have hve := (storeDoc_err hst).1
      cases e with
      | view =>
        obtain ⟨op, hop, v, hvv, hcol, hpol, hbad⟩ := C26_view_error_means_view_failed s _ _ _ _ happ
        simp only [List.mem_singleton] at hop
        subst hop
        have := honly v hvv hcol
        subst this
        rcases hbad with ⟨id, d, hput, hmap⟩ | ⟨l, hl⟩
        · have hcont := hput.2.1
          simp only [Command.contents, Option.some.injEq] at hcont
          simp [byPath, ← hcont, hk.file, hb] at hmap
        · cases hl
      | uniqueViolation n a c =>
        obtain ⟨hu, hd⟩ := C52_view_current s hdv cfg k hv σ hr
        obtain ⟨σ₀, hst0, hnone, he⟩ := hr
        have hn : n = (byPath cfg k).name := by
          obtain ⟨hinv, _⟩ := vexec_inv hdv hv (vstart_inv hst0) hst0.known he
          unfold storeDoc updateEagerViews at hst
          have hown : AllOwn { σ.db.trees with docs := upd σ.db.trees.docs cfg.files ((σ.db.trees.docs cfg.files).set i
              (Document.new s.digest i (k.enc f))) } := by
            intro c' id' d' hd'
            simp only [get_upd] at hd'
            split at hd'
            · by_cases e : i = id'
              · subst e
                rw [OMap.get_set_self] at hd'
                cases hd'
                rfl
              · rw [OMap.get_set_ne _ e] at hd'
                rename_i e'
                rw [e'] at *
                exact hinv.own _ _ _ hd'
            · exact hinv.own _ _ _ hd'
          obtain ⟨v, hvv, -, rfl, -⟩ := updateViewList_conflict hst
            (hdv.sublist ((List.filter_sublist.trans List.filter_sublist).map _)) hown
          simp only [Schema.viewsIn, List.mem_filter, decide_eq_true_eq] at hvv
          rw [honly v hvv.1.1 hvv.1.2]
        subst hn
        obtain ⟨-, pre, op, post, t1, ch1, rs, id, d, key, x, id', d', y, hsplit, hrun, -, hput, hem, hne, hd', hem'⟩ :=
          C30_rejection_means_duplicate_partial s hdv _ hv σ₀ σ hst0 hnone he tid _ _ _ _ happ
        have hpre : pre = [] ∧ op = ⟨cfg.files, .insert none (k.enc f)⟩ := by
          cases pre with
          | nil =>
            simp only [List.nil_append, List.cons.injEq] at hsplit
            exact ⟨rfl, hsplit.1.symm⟩
          | cons p pre => simp at hsplit
        obtain ⟨rfl, rfl⟩ := hpre
        cases hrun
        have hcont := hput.2.1
        simp only [Command.contents, Option.some.injEq] at hcont
        obtain ⟨ms, hms, hin⟩ := hem
        obtain ⟨ms', hms', hin'⟩ := hem'
        simp only [byPath, ← hcont, hk.file, Option.bind_some, hb, Option.map_some, Option.some.injEq] at hms
        subst hms
        simp only [List.mem_singleton, Prod.mk.injEq] at hin
        obtain ⟨rfl, -⟩ := hin
        cases hdec : k.dec d'.contents with
        | none => simp [byPath, hdec] at hms'
        | some f' =>
          simp only [byPath, hdec, Option.bind_some, Option.map_eq_some_iff] at hms'
          obtain ⟨b', hb', rfl⟩ := hms'
          simp only [List.mem_singleton, Prod.mk.injEq] at hin'
          obtain ⟨rfl, -⟩ := hin'
          obtain ⟨e1, e2⟩ := keyBytes_inj hb' hb
          exact hfree d'.header f' ⟨id', d', hd', rfl, hdec⟩ ⟨e1, e2⟩
      | _ => exact hve.elim
    · cases hex

/-! ## Moving and renaming -/

/-- What storing a changed file document does (no digest collisions). -/
theorem storeFile_ok {s : Schema} {S : Bytes → Prop} (hS : CollisionFree s.digest S) {cfg : Cfg} (hs : HasFiles s cfg)
    {k : FileCodec} {f : FileRec} (hx : S (k.enc f)) {tid : Nat} {db db' : Db} (hwf : DocsWF s.digest S db.trees.docs)
    {h₀ h : Header} (hp : storeFile s cfg k h₀ f tid db = (.ok h, db')) :
    (∃ rs, applyToRoots s db tid [⟨cfg.files, .update h₀ (k.enc f)⟩] = (.ok rs, db')) ∧
    (db'.trees.docs cfg.files).get h₀.id = some ⟨h, k.enc f⟩ ∧
    ∀ c id, ¬ (c = cfg.files ∧ id = h₀.id) → (db'.trees.docs c).get id = (db.trees.docs c).get id := by
  unfold storeFile at hp
  rcases apply_single (s := s) (db := db) (tid := tid) (op := ⟨cfg.files, .update h₀ (k.enc f)⟩) hs.filesKnown with
    ⟨t', r, ch, hex, happ⟩ | ⟨e, hex, happ⟩
  · rw [happ] at hp ⊢
    obtain ⟨h', rfl, h1, h2, -⟩ := execUpdate_stored hS hwf hx hex
    simp only [Prod.mk.injEq, Except.ok.injEq] at hp
    obtain ⟨rfl, rfl⟩ := hp
    exact ⟨⟨_, rfl⟩, h1, h2⟩
  · rw [happ] at hp
    simp at hp

/-- **C52**: a file that was moved is found at its new path (`C52_moved_path_partial`: the documented one); the
other files stay as they were. -/
theorem C52_move_then_load (s : Schema) (hdv : DistinctViews s) (S : Bytes → Prop) (hS : CollisionFree s.digest S)
    (cfg : Cfg) (hs : HasFiles s cfg) (k : FileCodec)
    (hk : k.Lawful) (hSk : ∀ f, S (k.enc f)) (hv : byPath cfg k ∈ s.views) (σ : VSys) (hr : FilesReachable s cfg k σ)
    (hwf : DocsWF s.digest S σ.db.trees.docs) (x : Found) (hw : WellNamed x.2) (p : Str) (tid : Nat)
    (ht : σ.db.lastTid ≤ tid) (h : Header) (f : FileRec) (db' : Db)
    (hm : moveTo s cfg k x p tid σ.db = (.ok (h, f), db')) :
    moved x.2 p = .ok f ∧ find k (pathEntries cfg k db') (fullPath f) = .ok (some (h, canonical f)) ∧
    (db'.trees.docs cfg.files).get x.1.id = some ⟨h, k.enc f⟩ ∧
    ∀ id, id ≠ x.1.id → (db'.trees.docs cfg.files).get id = (σ.db.trees.docs cfg.files).get id := by
  unfold moveTo at hm
  split at hm
  · cases hm
  rename_i f' hf
  split at hm
  · cases hm
  rename_i h' db₁ hp
  cases hm
  obtain ⟨⟨rs, happ⟩, hget, hframe⟩ := storeFile_ok hS hs (hSk f) hwf hp
  obtain ⟨σ₁, he1, rfl, -⟩ := commit_exec happ ht
  obtain ⟨hu, hd⟩ := C52_view_current s hdv cfg k hv σ₁ (hr.exec he1)
  exact ⟨hf, (C52_load cfg k hk _ _ hu hd h f ⟨_, _, hget, rfl, hk.file f⟩ (C52_names_stay_valid.2.1 _ _ _ hw hf)).1, hget,
    fun id hid => hframe cfg.files id (fun e => hid e.2)⟩

/-- **C52**, partial: a file that was renamed is found under its new name.  (Missing: `rename` accepts an empty
name, and then the file cannot be found by its path, see `C52_violated_empty_name`.) -/
theorem C52_rename_then_load_partial (s : Schema) (hdv : DistinctViews s) (S : Bytes → Prop)
    (hS : CollisionFree s.digest S) (cfg : Cfg) (hs : HasFiles s cfg) (k : FileCodec)
    (hk : k.Lawful) (hSk : ∀ f, S (k.enc f)) (hv : byPath cfg k ∈ s.views) (σ : VSys) (hr : FilesReachable s cfg k σ)
    (hwf : DocsWF s.digest S σ.db.trees.docs) (x : Found) (hw : WellNamed x.2) (n : Str) (hn : n ≠ []) (tid : Nat)
    (ht : σ.db.lastTid ≤ tid) (h : Header) (f : FileRec) (db' : Db)
    (hm : rename s cfg k x n tid σ.db = (.ok (h, f), db')) :
    f.name = n ∧ container f = container x.2 ∧
    find k (pathEntries cfg k db') (container x.2 ++ n) = .ok (some (h, canonical f)) ∧
    (db'.trees.docs cfg.files).get x.1.id = some ⟨h, k.enc f⟩ ∧
    ∀ id, id ≠ x.1.id → (db'.trees.docs cfg.files).get id = (σ.db.trees.docs cfg.files).get id := by
  unfold rename at hm
  split at hm
  · cases hm
  rename_i f' hf
  split at hm
  · cases hm
  rename_i h' db₁ hp
  cases hm
  obtain ⟨⟨rs, happ⟩, hget, hframe⟩ := storeFile_ok hS hs (hSk f) hwf hp
  obtain ⟨σ₁, he1, rfl, -⟩ := commit_exec happ ht
  obtain ⟨hu, hd⟩ := C52_view_current s hdv cfg k hv σ₁ (hr.exec he1)
  have hw' := C52_names_stay_valid.2.2 _ _ _ hw hn hf
  obtain ⟨e1, e2, -⟩ := C52_renamed_path _ _ _ hf
  have hl := (C52_load cfg k hk _ _ hu hd h f ⟨_, _, hget, rfl, hk.file f⟩ hw').1
  rw [fullPath_eq hw'.2.2, e1, e2] at hl
  exact ⟨e2, e1, hl, hget, fun id hid => hframe cfg.files id (fun e => hid e.2)⟩

end Bonsai.Files
