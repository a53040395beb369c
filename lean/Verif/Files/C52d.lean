import Verif.Files.C52c

/-!
# C52: examples, and where the property does not hold
-/
set_option linter.unusedSimpArgs false
set_option linter.unusedSectionVars false

namespace Bonsai.Files
open Bonsai Bonsai.Names Bonsai.Store Bonsai.Query

/-! ## A serialization -/

/-- Numbers below 2^32, each with a mark, and an end mark. -/
def encNats (l : List Nat) : Bytes := l.flatMap (fun n => 1 :: toBE 4 n) ++ [0]

def decNats : Bytes → Option (List Nat × Bytes)
  | 1 :: a :: b :: c :: d :: r => (decNats r).map fun x => (fromBE [a, b, c, d] :: x.1, x.2)
  | 0 :: r => some ([], r)
  | _ => none

theorem decNats_encNats : ∀ (l : List Nat) (r : Bytes), (∀ n ∈ l, n < 2 ^ 32) → decNats (encNats l ++ r) = some (l, r)
  | [], r, _ => rfl
  | n :: l, r, h => by
    have hn : n < 256 ^ 4 := by have := h n List.mem_cons_self; omega
    have hl := toBE_length 4 n
    have hv := fromBE_toBE hn
    have ih := decNats_encNats l r fun n hn => h n (List.mem_cons_of_mem _ hn)
    have e : encNats (n :: l) ++ r = 1 :: (toBE 4 n ++ (encNats l ++ r)) := by simp [encNats]
    rw [e]
    generalize toBE 4 n = t at hl hv
    match t, hl with
    | [a, b, c, d], _ =>
      simp only [List.cons_append, List.nil_append, decNats, ih, Option.map_some, hv]

def natsOf (s : Str) : List Nat := s.map Char.toNat
def strOf (l : List Nat) : Str := l.map Char.ofNat

theorem strOf_natsOf (s : Str) : strOf (natsOf s) = s := by
  simp only [strOf, natsOf, List.map_map]
  conv => rhs; rw [← List.map_id s]
  congr 1
  funext c
  exact Char.ofNat_toNat c

theorem natsOf_lt (s : Str) : ∀ n ∈ natsOf s, n < 2 ^ 32 := by
  intro n hn
  simp only [natsOf, List.mem_map] at hn
  obtain ⟨c, -, rfl⟩ := hn
  have := char_range c
  omega

def encMeta (v : BitVec 64 × Bytes) : Bytes := toBE 8 v.1.toNat ++ v.2

def decMeta (b : Bytes) : Option (BitVec 64 × Bytes) := some (BitVec.ofNat 64 (fromBE (b.take 8)), b.drop 8)

theorem decMeta_encMeta (v : BitVec 64 × Bytes) : decMeta (encMeta v) = some v := by
  obtain ⟨t, b⟩ := v
  have hl := toBE_length 8 t.toNat
  have ht : t.toNat < 256 ^ 8 := by have := t.isLt; omega
  simp only [decMeta, encMeta]
  rw [List.take_append_of_le_length (by omega), List.take_of_length_le (by omega), List.drop_append_of_le_length (by omega),
    List.drop_of_length_le (by omega), fromBE_toBE ht]
  simp

/-- A serialization of files. -/
def exFileCodec : FileCodec where
  enc f := encNats (match f.path with | none => [] | some p => 0 :: natsOf p) ++ (encNats (natsOf f.name) ++
    encMeta (f.created, f.metadata))
  dec b := (decNats b).bind fun x => (decNats x.2).bind fun y => (decMeta y.2).map fun v =>
    ⟨match x.1 with | [] => none | _ :: p => some (strOf p), strOf y.1, v.1, v.2⟩
  encValue := encMeta
  decValue := decMeta

theorem exFileCodec_lawful : exFileCodec.Lawful where
  file f := by
    obtain ⟨p, n, c, m⟩ := f
    have hp : ∀ x ∈ (match p with | none => [] | some p => 0 :: natsOf p : List Nat), x < 2 ^ 32 := by
      cases p with
      | none => intro x hx; cases hx
      | some p =>
        intro x hx
        rcases List.mem_cons.mp hx with rfl | hx
        · omega
        · exact natsOf_lt p x hx
    simp only [exFileCodec, decNats_encNats _ _ hp, decNats_encNats _ _ (natsOf_lt n), Option.bind_some, decMeta_encMeta,
      Option.map_some, strOf_natsOf]
    cases p <;> simp [strOf_natsOf]
  value := decMeta_encMeta

/-! ## A database with one file -/

/-- The schema of files with the view of paths. -/
def exPathSchema : Schema := { exFiles with views := [byPath exCfg exFileCodec] }

theorem exPath_distinct : DistinctViews exPathSchema := by simp [DistinctViews, exPathSchema]

theorem exPath_has : HasFiles exPathSchema exCfg where
  filesKnown := by decide
  blocksKnown := by decide
  apart := by decide
  blockIds := rfl
  fileIds := rfl
  lazyBlocks := by
    intro v hv
    simp only [Schema.viewsIn, exPathSchema, List.mem_filter, List.mem_singleton, decide_eq_true_eq] at hv
    obtain ⟨rfl, hc⟩ := hv
    exact absurd hc (by decide)

theorem exPath_reachable : FilesReachable exPathSchema exCfg exFileCodec exStart :=
  ⟨exStart, exStart_start _, fun _ => rfl, .refl _⟩

/-- Every file with names that fit into a key can be the only file of a reachable database. -/
theorem one_file (f : FileRec) (hkey : (keyBytes (container f) f.name).isSome) :
    ∃ σ h, FilesReachable exPathSchema exCfg exFileCodec σ ∧
      (∀ h' f', IsFile exFileCodec (σ.db.trees.docs exCfg.files) h' f' ↔ h' = h ∧ f' = f) ∧
      UpToDate (byPath exCfg exFileCodec) (pathEntries exCfg exFileCodec σ.db) (σ.db.trees.docs exCfg.files) := by
  have hnone : ∀ id, (exStart.db.trees.docs exCfg.files).get id = none := fun _ => rfl
  obtain ⟨h, db', hp⟩ := C52_create_succeeds exPathSchema exPath_distinct exCfg exPath_has exFileCodec exFileCodec_lawful
    (by simp [exPathSchema]) (fun v hv _ => by simpa [exPathSchema] using hv) exStart exPath_reachable f 0 hkey
    (by
      rintro h f' ⟨id, d, hd, -⟩
      rw [hnone] at hd
      cases hd)
    [0, 0, 0, 1] rfl rfl
  obtain ⟨⟨rs, happ⟩, -, hget, hframe⟩ := pushFile_ok exPath_has hp
  obtain ⟨σ, he, rfl, -⟩ := commit_exec happ (Nat.zero_le _)
  have hr := exPath_reachable.exec he
  refine ⟨σ, h, hr, ?_, (C52_view_current _ exPath_distinct _ _ (by simp [exPathSchema]) σ hr).1⟩
  intro h' f'
  constructor
  · rintro ⟨id, d, hd, rfl, hf⟩
    by_cases e : id = h.id
    · subst e
      rw [hget] at hd
      cases hd
      rw [exFileCodec_lawful.file] at hf
      cases hf
      exact ⟨rfl, rfl⟩
    · rw [hframe exCfg.files id (fun x => e x.2), hnone] at hd
      cases hd
  · rintro ⟨rfl, rfl⟩
    exact isFile_of_get exFileCodec_lawful hget

theorem key_fits {p n : Str} (h1 : (esc p).length ≤ 65535) (h2 : (esc n).length ≤ 65535) : (keyBytes p n).isSome := by
  rw [keyBytes_eq, if_pos ⟨h1, h2⟩]
  rfl

/-- The file `/a/b`. -/
def exAB : FileRec := ⟨some ['/', 'a', '/'], ['b'], 0, []⟩

/-- The theorems about listings, loading, moving and renaming apply to it. -/
example : ∃ σ h, FilesReachable exPathSchema exCfg exFileCodec σ ∧
    find exFileCodec (pathEntries exCfg exFileCodec σ.db) "/a/b".toList = .ok (some (h, exAB)) ∧
    list exFileCodec (pathEntries exCfg exFileCodec σ.db) "/a".toList = some [(h, exAB)] ∧
    listRecursive exFileCodec (pathEntries exCfg exFileCodec σ.db) "/".toList = some [(h, exAB)] ∧
    list exFileCodec (pathEntries exCfg exFileCodec σ.db) "/".toList = some [] := by
  obtain ⟨σ, h, hr, hf, hu⟩ := one_file exAB (key_fits (by decide) (by decide))
  have huniq : ∀ (l : List Found) (P : Prop), (l.map fun x => x.1.id).Nodup →
      (∀ h' f', (h', f') ∈ l ↔ ∃ f₀, IsFile exFileCodec (σ.db.trees.docs exCfg.files) h' f₀ ∧ f' = canonical f₀ ∧
        f₀ = exAB) → l = [(h, exAB)] := by
    intro l _ hnd hl
    have hmem : ∀ x ∈ l, x = (h, exAB) := by
      rintro ⟨h', f'⟩ hx
      obtain ⟨f₀, hf₀, rfl, rfl⟩ := (hl h' f').mp hx
      obtain ⟨rfl, -⟩ := (hf _ _).mp hf₀
      rfl
    have hin : (h, exAB) ∈ l := (hl _ _).mpr ⟨exAB, (hf _ _).mpr ⟨rfl, rfl⟩, rfl, rfl⟩
    match l, hnd, hmem, hin with
    | [x], _, hmem, _ => rw [hmem x (by simp)]
    | x :: y :: l, hnd, hmem, _ =>
      have e1 := hmem x (by simp)
      have e2 := hmem y (by simp)
      rw [e1, e2] at hnd
      simp at hnd
  refine ⟨σ, h, hr, ?_, ?_, ?_, ?_⟩
  · have := (C52_load exCfg exFileCodec exFileCodec_lawful _ _ hu
      (C52_view_current _ exPath_distinct _ _ (by simp [exPathSchema]) σ hr).2 h exAB ((hf _ _).mpr ⟨rfl, rfl⟩)
      ⟨by decide, by decide, by decide⟩).1
    exact this
  · obtain ⟨l, h1, h2, h3⟩ := C52_list_partial exCfg exFileCodec exFileCodec_lawful _ _ hu "/a".toList (by decide) (by
      intro h' f' hf'
      obtain ⟨-, rfl⟩ := (hf _ _).mp hf'
      decide)
    rw [h1, huniq l True h2]
    intro h' f'
    rw [h3]
    refine exists_congr fun f₀ => and_congr_right fun hf₀ => and_congr_right fun _ => ?_
    obtain ⟨-, rfl⟩ := (hf _ _).mp hf₀
    exact ⟨fun _ => rfl, fun _ => by decide⟩
  · obtain ⟨l, h1, h2, h3⟩ := C52_list_recursive_partial exCfg exFileCodec exFileCodec_lawful _ _ hu "/".toList (by decide)
      (by decide) (by decide) (by
      intro h' f' hf'
      obtain ⟨-, rfl⟩ := (hf _ _).mp hf'
      exact ⟨by decide, by decide, 'b', by decide, by decide⟩)
    rw [h1, huniq l True h2]
    intro h' f'
    rw [h3]
    refine exists_congr fun f₀ => and_congr_right fun hf₀ => and_congr_right fun _ => ?_
    obtain ⟨-, rfl⟩ := (hf _ _).mp hf₀
    exact ⟨fun _ => rfl, fun _ => by decide⟩
  · obtain ⟨l, h1, h2, h3⟩ := C52_list_partial exCfg exFileCodec exFileCodec_lawful _ _ hu "/".toList (by decide) (by
      intro h' f' hf'
      obtain ⟨-, rfl⟩ := (hf _ _).mp hf'
      decide)
    rw [h1]
    cases l with
    | nil => rfl
    | cons x l =>
      obtain ⟨h', f'⟩ := x
      obtain ⟨f₀, hf₀, -, hc⟩ := (h3 h' f').mp (by simp)
      obtain ⟨-, rfl⟩ := (hf _ _).mp hf₀
      exact absurd hc (by decide)

/-! ## Where C52 does not hold -/

/-- A directory path of 50 bytes. -/
def exLong : Str := '/' :: List.replicate 48 'a' ++ ['/']

/-- **C52 is violated**: `list_recursive` of a directory misses a file in that directory, because the length of
the path takes part in the comparison of keys: in a directory whose path has 50 bytes, the file named `0`. -/
theorem C52_violated_recursive_misses :
    ∃ σ h f, FilesReachable exPathSchema exCfg exFileCodec σ ∧
      IsFile exFileCodec (σ.db.trees.docs exCfg.files) h f ∧ WellNamed f ∧ container f = exLong ∧ f.name = ['0'] ∧
      listRecursive exFileCodec (pathEntries exCfg exFileCodec σ.db) exLong = some [] := by
  obtain ⟨σ, h, hr, hf, hu⟩ := one_file ⟨some exLong, ['0'], 0, []⟩ (key_fits (by decide) (by decide))
  refine ⟨σ, h, _, hr, (hf _ _).mpr ⟨rfl, rfl⟩, ⟨by decide, by decide, by decide⟩, rfl, rfl, ?_⟩
  obtain ⟨l, h1, -, h3⟩ := C52_list_recursive_exact exCfg exFileCodec exFileCodec_lawful _ _ hu exLong
    ('0' :: List.replicate 48 'a' ++ ['/']) (by decide) (by decide) (by decide) (by decide) (by
      intro h' f' hf'
      obtain ⟨-, rfl⟩ := (hf _ _).mp hf'
      decide)
  rw [h1]
  cases l with
  | nil => rfl
  | cons x l =>
    exfalso
    obtain ⟨h', f'⟩ := x
    obtain ⟨f₀, hf₀, -, hc⟩ := (h3 h' f').mp (by simp)
    obtain ⟨-, rfl⟩ := (hf _ _).mp hf₀
    rcases hc with ⟨-, hc⟩ | ⟨hc, -⟩
    · exact hc ⟨rfl, by decide⟩
    · exact absurd hc (by decide)

/-- **C52 is violated**: `list_recursive` returns a file whose path does not start with the path asked for. -/
theorem C52_violated_recursive_extra :
    ∃ σ h f q l, FilesReachable exPathSchema exCfg exFileCodec σ ∧
      IsFile exFileCodec (σ.db.trees.docs exCfg.files) h f ∧ WellNamed f ∧ ¬ q <+: fullPath f ∧
      listRecursive exFileCodec (pathEntries exCfg exFileCodec σ.db) q = some l ∧ (h, f) ∈ l := by
  obtain ⟨σ, h, hr, hf, hu⟩ := one_file ⟨some exLong, ['0'], 0, []⟩ (key_fits (by decide) (by decide))
  obtain ⟨l, h1, -, h3⟩ := C52_list_recursive_exact exCfg exFileCodec exFileCodec_lawful _ _ hu
    ('/' :: List.replicate 48 'a' ++ ['.'])
    ('/' :: List.replicate 48 'a' ++ ['/']) (by decide) (by decide) (by decide) (by decide) (by
      intro h' f' hf'
      obtain ⟨-, rfl⟩ := (hf _ _).mp hf'
      decide)
  refine ⟨σ, h, _, '/' :: List.replicate 48 'a' ++ ['.'], l, hr, (hf _ _).mpr ⟨rfl, rfl⟩,
    ⟨by decide, by decide, by decide⟩, by decide, h1, (h3 _ _).mpr ⟨_, (hf _ _).mpr ⟨rfl, rfl⟩, by decide, .inr ⟨by decide, by decide⟩⟩⟩

/-- **C52 is violated**: `list` returns a file of another directory, whose path continues the listed one with a
null character. -/
theorem C52_violated_null_listed :
    ∃ σ h f l, FilesReachable exPathSchema exCfg exFileCodec σ ∧
      IsFile exFileCodec (σ.db.trees.docs exCfg.files) h f ∧ WellNamed f ∧ container f = ['/', 'a', '/', '\x00', 'b', '/'] ∧
      list exFileCodec (pathEntries exCfg exFileCodec σ.db) ['/', 'a', '/'] = some l ∧ (h, f) ∈ l := by
  obtain ⟨σ, h, hr, hf, hu⟩ := one_file ⟨some ['/', 'a', '/', '\x00', 'b', '/'], ['c'], 0, []⟩
    (key_fits (by decide) (by decide))
  obtain ⟨l, h1, -, h3⟩ := C52_list_exact exCfg exFileCodec exFileCodec_lawful _ _ hu ['/', 'a', '/'] (by decide)
  exact ⟨σ, h, _, l, hr, (hf _ _).mpr ⟨rfl, rfl⟩, ⟨by decide, by decide, by decide⟩, rfl, h1,
    (h3 _ _).mpr ⟨_, (hf _ _).mpr ⟨rfl, rfl⟩, by decide, .inr (by decide)⟩⟩

/-- **C52 is violated**: a directory whose path has a null character is listed as empty. -/
theorem C52_violated_null_missing :
    ∃ σ h f, FilesReachable exPathSchema exCfg exFileCodec σ ∧
      IsFile exFileCodec (σ.db.trees.docs exCfg.files) h f ∧ WellNamed f ∧ container f = ['/', '\x00', '/'] ∧
      list exFileCodec (pathEntries exCfg exFileCodec σ.db) ['/', '\x00', '/'] = some [] := by
  obtain ⟨σ, h, hr, hf, hu⟩ := one_file ⟨some ['/', '\x00', '/'], ['c'], 0, []⟩ (key_fits (by decide) (by decide))
  refine ⟨σ, h, _, hr, (hf _ _).mpr ⟨rfl, rfl⟩, ⟨by decide, by decide, by decide⟩, rfl, ?_⟩
  obtain ⟨l, h1, h2, -⟩ := query_files exFileCodec_lawful hu
    (some (.range ⟨.included (exactBound ['/', '\x00', '/'] true), .excluded (exactBound ['/', '\x00', '/'] false)⟩))
  unfold list
  rw [h1]
  cases l with
  | nil => rfl
  | cons x l =>
    exfalso
    obtain ⟨h', f'⟩ := x
    obtain ⟨f₀, b, hf₀, hb, hs, -⟩ := (h2 h' f').mp (by simp)
    obtain ⟨-, rfl⟩ := (hf _ _).mp hf₀
    obtain ⟨-, -, rfl⟩ := keyBytes_some hb
    exact absurd hs.1 (by decide)

/-- **C52 is violated**: `list_recursive` of the empty path returns nothing, whatever is stored, although all
paths start with it. -/
theorem C52_violated_recursive_empty (cfg : Cfg) (k : FileCodec) (hk : k.Lawful) (es : OMap ViewEntry) (m : OMap Document)
    (hu : UpToDate (byPath cfg k) es m) : listRecursive k es [] = some [] := by
  have ha : ∀ b, recBound [] b = some [0, 0] := by
    intro b
    rw [recBound_eq [] b [] (by cases b <;> rfl)]
    rfl
  obtain ⟨l, h1, h2, -⟩ := query_files hk hu (some (.range ⟨.included [0, 0], .excluded [0, 0]⟩))
  unfold listRecursive
  rw [ha, ha]
  simp only [Option.bind_some, h1]
  cases l with
  | nil => rfl
  | cons x l =>
    exfalso
    obtain ⟨h', f'⟩ := x
    obtain ⟨f₀, b, -, -, hs, -⟩ := (h2 h' f').mp (by simp)
    exact hs.1 hs.2

/-- **C52 is violated**: a file created at the path `//x` is not found at `//x`. -/
theorem C52_violated_double_slash :
    ∃ σ h f, FilesReachable exPathSchema exCfg exFileCodec σ ∧ newFile (Builder.new ['/', '/', 'x']) 0 [] = .ok f ∧
      IsFile exFileCodec (σ.db.trees.docs exCfg.files) h f ∧
      find exFileCodec (pathEntries exCfg exFileCodec σ.db) ['/', '/', 'x'] = .ok none := by
  obtain ⟨σ, h, hr, hf, hu⟩ := one_file ⟨none, ['x'], 0, []⟩ (key_fits (by decide) (by decide))
  refine ⟨σ, h, _, hr, by rfl, (hf _ _).mpr ⟨rfl, rfl⟩, ?_⟩
  obtain ⟨r, h1, h2, -⟩ := C52_find_exact exCfg exFileCodec exFileCodec_lawful _ _ hu ['/', '/', 'x'] ['/', '/'] ['x']
    (by rfl) (key_fits (by decide) (by decide))
  rw [h1]
  cases r with
  | none => rfl
  | some x =>
    obtain ⟨h', f'⟩ := x
    obtain ⟨f₀, hf₀, hc, -⟩ := h2 h' f' rfl
    obtain ⟨-, rfl⟩ := (hf _ _).mp hf₀
    exact absurd hc (by decide)

/-- **C52 is violated**: `rename` accepts the empty name; the file cannot be found by its path then. -/
theorem C52_violated_empty_name :
    ∃ σ h f₀ f, FilesReachable exPathSchema exCfg exFileCodec σ ∧ WellNamed f₀ ∧ renamed f₀ [] = .ok f ∧
      IsFile exFileCodec (σ.db.trees.docs exCfg.files) h f ∧
      find exFileCodec (pathEntries exCfg exFileCodec σ.db) (fullPath f) = .ok none := by
  obtain ⟨σ, h, hr, hf, hu⟩ := one_file ⟨some ['/', 'a', '/'], [], 0, []⟩ (key_fits (by decide) (by decide))
  refine ⟨σ, h, exAB, _, hr, ⟨by decide, by decide, by decide⟩, by rfl, (hf _ _).mpr ⟨rfl, rfl⟩, ?_⟩
  obtain ⟨r, h1, h2, -⟩ := C52_find_exact exCfg exFileCodec exFileCodec_lawful _ _ hu ['/', 'a', '/'] ['/'] ['a']
    (by rfl) (key_fits (by decide) (by decide))
  show find exFileCodec _ ['/', 'a', '/'] = _
  rw [h1]
  cases r with
  | none => rfl
  | some x =>
    obtain ⟨h', f'⟩ := x
    obtain ⟨f₀, hf₀, hc, -⟩ := h2 h' f' rfl
    obtain ⟨-, rfl⟩ := (hf _ _).mp hf₀
    exact absurd hc (by decide)

end Bonsai.Files
