import Verif.Backup.C49
import Verif.Storage.C46
import Verif.Store.C26

/-!
# C49: backups in a directory, and the data a backup loses
-/
set_option linter.unusedSimpArgs false
set_option linter.unusedSectionVars false

namespace Bonsai.Backup
open Bonsai Bonsai.Names

variable {F : Type} [KV.FloatOps F]

/-! ## Specification -/

/-- A name that is one component of a path. -/
def Safe (n : Bytes) : Prop := n ≠ [] ∧ (47 : UInt8) ∉ n ∧ n ≠ [46] ∧ n ≠ [46, 46]

/-- All parts of the address are. -/
def SafeAddr (a : Addr) : Prop :=
  Safe (encodeQ a.schema) ∧ Safe (strBytes a.database) ∧ Safe a.container ∧ Safe a.name

/-- Nothing is in the directory, and no file is in the way of creating it. -/
def Fresh (fs : Fs) (base : Path) : Prop :=
  (∀ p, p <+: base → fs.files p = none) ∧ (∀ q, q ≠ [] → fs.files (base ++ q) = none ∧ fs.dirs (base ++ q) = false)

/-- Several calls of `store`; `none` if one fails. -/
def Fs.stores (fs : Fs) (base : Path) : List (Addr × Bytes) → Option Fs
  | [] => some fs
  | p :: os => (fs.store base p.1 p.2).bind fun fs => fs.stores base os

/-! ## Paths -/

theorem splitSlash_safe {n : Bytes} (h : (47 : UInt8) ∉ n) : splitSlash n = [n] := by
  induction n with
  | nil => rfl
  | cons c cs ih =>
    simp only [List.mem_cons, not_or] at h
    have hc : c ≠ 47 := fun e => h.1 e.symm
    simp [splitSlash, hc, ih h.2]

theorem join_safe {n : Bytes} (h : Safe n) (base : Path) : join base n = base ++ [n] := by
  obtain ⟨h1, h2, h3, h4⟩ := h
  unfold join
  rw [splitSlash_safe h2, if_neg]
  · simp [resolveStep, h1, h3, h4]
  · intro hh
    cases n with
    | nil => simp at hh
    | cons b n => simp only [List.head?_cons, Option.some.injEq] at hh; subst hh; simp at h2

theorem folder_safe {a : Addr} (h : SafeAddr a) (base : Path) :
    folder base a.schema a.database a.container = base ++ [encodeQ a.schema, strBytes a.database, a.container] := by
  unfold folder
  rw [join_safe h.1, join_safe h.2.1, join_safe h.2.2.1]
  simp

/-- What the directory contains, by the four components of a path. -/
structure Rep (fs : Fs) (base : Path) (m : Bytes → Bytes → Bytes → Bytes → Option Bytes) : Prop where
  below : ∀ q, q.length ≠ 4 → fs.files (base ++ q) = none
  four : ∀ s d c n, fs.files (base ++ [s, d, c, n]) = m s d c n
  above : ∀ p, p <+: base → fs.files p = none
  dirs : ∀ q, q ≠ [] → (fs.dirs (base ++ q) = true ↔ ∃ s d c n, (m s d c n).isSome ∧ q <+: [s, d, c])

theorem rep_fresh {fs : Fs} {base : Path} (h : Fresh fs base) : Rep fs base fun _ _ _ _ => none := by
  refine ⟨fun q hq => ?_, fun s d c n => (h.2 _ (by simp)).1, h.1, fun q hq => ?_⟩
  · cases q with
    | nil => exact h.1 _ (by simp)
    | cons x q => exact (h.2 _ (by simp)).1
  · rw [(h.2 q hq).2]; simp

theorem take_append_cases (base q : Path) (i : Nat) :
    ((base ++ q).take i <+: base) ∨ ∃ j, (base ++ q).take i = base ++ q.take j := by
  rw [List.take_append]
  by_cases h : i ≤ base.length
  · left
    rw [show i - base.length = 0 from by omega, List.take_zero, List.append_nil]
    exact List.take_prefix ..
  · right
    exact ⟨i - base.length, by rw [List.take_of_length_le (by omega)]⟩

/-- Storing an object at a safe address succeeds. -/
theorem store_rep {fs : Fs} {base : Path} {m : Bytes → Bytes → Bytes → Bytes → Option Bytes} (hr : Rep fs base m)
    {a : Addr} (ha : SafeAddr a) (o : Bytes) :
    ∃ fs', fs.store base a o = some fs' ∧ Rep fs' base fun s d c n =>
      if s = encodeQ a.schema ∧ d = strBytes a.database ∧ c = a.container ∧ n = a.name then some o
      else m s d c n := by
  unfold Fs.store
  rw [folder_safe ha, join_safe ha.2.2.2]
  generalize hS : encodeQ a.schema = S
  generalize hD : strBytes a.database = D
  generalize hC : a.container = C
  generalize hN : a.name = N
  have hc : fs.createDirAll (base ++ [S, D, C]) =
      some { fs with dirs := fun q => fs.dirs q || q.isPrefixOf (base ++ [S, D, C]) } := by
    unfold Fs.createDirAll
    rw [if_neg]
    intro h
    rw [List.any_eq_true] at h
    obtain ⟨i, -, hi⟩ := h
    rcases take_append_cases base [S, D, C] i with hp | ⟨j, hj⟩
    · rw [hr.above _ hp] at hi; cases hi
    · rw [hj, hr.below _ (by rw [List.length_take]; simp; omega)] at hi; cases hi
  rw [hc, Option.bind_some]
  have happ : base ++ [S, D, C] ++ [N] = base ++ [S, D, C, N] := by simp
  rw [happ]
  unfold Fs.write
  have hdl : (base ++ [S, D, C, N]).dropLast = base ++ [S, D, C] := by
    rw [← happ, List.dropLast_concat]
  rw [if_pos]
  · refine ⟨_, rfl, ?_, ?_, ?_, ?_⟩
    · intro q hq
      show (if base ++ q = base ++ [S, D, C, N] then some o else fs.files (base ++ q)) = none
      rw [if_neg, hr.below q hq]
      intro e
      rw [List.append_cancel_left_eq] at e
      subst e
      exact hq rfl
    · intro s d c n
      show (if base ++ [s, d, c, n] = base ++ [S, D, C, N] then some o else fs.files (base ++ [s, d, c, n])) = _
      rw [hr.four]
      simp only [List.append_cancel_left_eq, List.cons.injEq, and_true]
    · intro p hp
      show (if p = base ++ [S, D, C, N] then some o else fs.files p) = none
      rw [if_neg, hr.above p hp]
      rintro rfl
      have := hp.length_le
      simp only [List.length_append, List.length_cons, List.length_nil] at this
      omega
    · intro q hq
      show (fs.dirs (base ++ q) || (base ++ q).isPrefixOf (base ++ [S, D, C])) = true ↔ _
      rw [Bool.or_eq_true, hr.dirs q hq, List.isPrefixOf_iff_prefix, List.prefix_append_right_inj]
      constructor
      · rintro (⟨s, d, c, n, h1, h2⟩ | h)
        · refine ⟨s, d, c, n, ?_, h2⟩
          split
          · rfl
          · exact h1
        · exact ⟨S, D, C, N, by simp, h⟩
      · rintro ⟨s, d, c, n, h1, h2⟩
        split at h1
        · rename_i he
          obtain ⟨rfl, rfl, rfl, rfl⟩ := he
          exact .inr h2
        · exact .inl ⟨s, d, c, n, h1, h2⟩
  · refine ⟨by simp, ?_, ?_⟩
    · rw [hdl]
      show (fs.dirs _ || (base ++ [S, D, C]).isPrefixOf (base ++ [S, D, C])) = true
      rw [Bool.or_eq_true]
      exact .inr (List.isPrefixOf_iff_prefix.mpr (List.prefix_refl _))
    · show (fs.dirs _ || (base ++ [S, D, C, N]).isPrefixOf (base ++ [S, D, C])) = false
      rw [Bool.or_eq_false_iff]
      constructor
      · cases hdx : fs.dirs (base ++ [S, D, C, N]) with
        | false => rfl
        | true =>
          obtain ⟨s, d, c, n, -, h2⟩ := (hr.dirs _ (by simp)).mp hdx
          have := h2.length_le
          simp at this
      · cases hpx : (base ++ [S, D, C, N]).isPrefixOf (base ++ [S, D, C]) with
        | false => rfl
        | true =>
          have := (List.isPrefixOf_iff_prefix.mp hpx).length_le
          simp only [List.length_append, List.length_cons, List.length_nil] at this
          omega

/-- The directory holds what the abstract location holds. -/
def Holds (m : Bytes → Bytes → Bytes → Bytes → Option Bytes) (l : Loc) : Prop :=
  (∀ s d c n, m (encodeQ s) (strBytes d) c n = l.load ⟨s, d, c, n⟩) ∧
    ∀ s d c n, (m s d c n).isSome → ∃ s' d', s = encodeQ s' ∧ d = strBytes d'

theorem stores_rep (base : Path) (os : List (Addr × Bytes)) :
    ∀ (fs : Fs) (m : Bytes → Bytes → Bytes → Bytes → Option Bytes) (l : Loc), Rep fs base m → Holds m l →
      (∀ p ∈ os, SafeAddr p.1) →
      ∃ fs' m', fs.stores base os = some fs' ∧ Rep fs' base m' ∧ Holds m' (l.stores os) := by
  induction os with
  | nil => intro fs m l hr hh _; exact ⟨fs, m, rfl, hr, hh⟩
  | cons p os ih =>
    intro fs m l hr hh hs
    obtain ⟨fs1, h1, hr1⟩ := store_rep hr (hs p (List.mem_cons_self ..)) p.2
    obtain ⟨fs', m', h2, h3, h4⟩ := ih fs1 _ (l.store p.1 p.2) hr1 ⟨fun s d c n => by
        rw [load_store]
        dsimp only
        by_cases he : p.1 = ⟨s, d, c, n⟩
        · rw [if_pos he, if_pos]
          rw [he]; exact ⟨rfl, rfl, rfl, rfl⟩
        · rw [if_neg he, if_neg, hh.1]
          rintro ⟨e1, e2, e3, e4⟩
          apply he
          have e1 := encodeQ_inj e1
          have e2 := strBytes_inj e2
          subst e1 e2 e3 e4
          rfl, fun s d c n h => by
        dsimp only at h
        split at h
        · rename_i he; exact ⟨_, _, he.1, he.2.1⟩
        · exact hh.2 s d c n h⟩ (fun p hp => hs p (List.mem_cons_of_mem _ hp))
    refine ⟨fs', m', ?_, h3, h4⟩
    rw [Fs.stores, h1]
    exact h2

/-- **C49 (partial)**: a directory that is empty or does not exist is a backup location as the trait documents
it, for names that are single path components: storing succeeds, and loading and listing answer what was
stored; except that the database `_kv` is not listed. -/
theorem C49_path_location_partial {fs : Fs} {base : Path} (hf : Fresh fs base) (os : List (Addr × Bytes))
    (hs : ∀ p ∈ os, SafeAddr p.1) :
    ∃ fs', fs.stores base os = some fs' ∧ ∀ s d, Safe (encodeQ s) → Safe (strBytes d) →
      (∀ c n, Safe c → Safe n → fs'.load base ⟨s, d, c, n⟩ = (Loc.stores [] os).load ⟨s, d, c, n⟩) ∧
      (∀ c n, Safe c → (fs'.listsStored base s d c n ↔ ((Loc.stores [] os).load ⟨s, d, c, n⟩).isSome)) ∧
      (fs'.listsDatabase base s d ↔
        strBytes d ≠ kvContainer ∧ ∃ c n, ((Loc.stores [] os).load ⟨s, d, c, n⟩).isSome) := by
  obtain ⟨fs', m', h1, h2, h3⟩ := stores_rep base os fs _ [] (rep_fresh hf)
    ⟨fun _ _ _ _ => rfl, fun _ _ _ _ h => (by cases h)⟩ hs
  refine ⟨fs', h1, fun s d ss sd => ⟨fun c n sc sn => ?_, fun c n sc => ?_, ?_⟩⟩
  · unfold Fs.load
    rw [folder_safe (a := ⟨s, d, c, n⟩) ⟨ss, sd, sc, sn⟩, join_safe sn, List.append_assoc]
    show fs'.files (base ++ [encodeQ s, strBytes d, c, n]) = _
    rw [h2.four, h3.1]
  · unfold Fs.listsStored folder
    rw [join_safe ss, join_safe sd, join_safe sc]
    have : base ++ [encodeQ s] ++ [strBytes d] ++ [c] ++ [n] = base ++ [encodeQ s, strBytes d, c, n] := by simp
    rw [this, h2.four, h3.1]
  · unfold Fs.listsDatabase
    have e : base ++ [encodeQ s] ++ [strBytes d] = base ++ [encodeQ s, strBytes d] := by simp
    rw [e, h2.dirs _ (by simp), h2.dirs _ (by simp)]
    constructor
    · rintro ⟨-, ⟨s', d', c, n, hm, hp⟩, hk⟩
      refine ⟨hk, c, n, ?_⟩
      obtain ⟨t, ht⟩ := hp
      simp only [List.cons_append, List.nil_append, List.cons.injEq] at ht
      obtain ⟨rfl, rfl, -⟩ := ht
      rw [← h3.1]
      exact hm
    · rintro ⟨hk, c, n, hm⟩
      rw [← h3.1] at hm
      exact ⟨⟨_, _, _, _, hm, by simp⟩, ⟨_, _, _, _, hm, by simp⟩, hk⟩

/-! ## Which names are safe -/

theorem safe_encodeQ {q : QName} (h : q.authority ≠ "" ∨ q.name ≠ "") : Safe (encodeQ q) := by
  have hne : ∀ x : String, encodeName x = [] → x = "" := by
    intro x hx
    have h1 := parseName_encodeName x
    have h2 := parseName_encodeName ""
    have : encodeName "" = [] := by decide
    rw [hx] at h1
    rw [this, h1] at h2
    exact Option.some.inj h2
  have hno : ∀ x : String, (47 : UInt8) ∉ encodeName x := by
    intro x hm
    rcases encodeName_chars x _ hm with h | h
    · exact absurd h (by decide)
    · exact absurd h (by decide)
  unfold encodeQ
  have e1 : encodeName q.authority ++ 46 :: encodeName q.name = [46] → False := by
    intro e
    have hl := congrArg List.length e
    simp only [List.length_append, List.length_cons, List.length_nil] at hl
    have a : encodeName q.authority = [] := List.length_eq_zero_iff.mp (by omega)
    have b : encodeName q.name = [] := List.length_eq_zero_iff.mp (by omega)
    rcases h with h | h
    · exact h (hne _ a)
    · exact h (hne _ b)
  refine ⟨by simp, ?_, e1, ?_⟩
  · simp only [List.mem_append, List.mem_cons, not_or]
    exact ⟨hno _, by decide, hno _⟩
  · intro e
    have h1 := no_dot q.authority
    have h2 := no_dot q.name
    cases ha : encodeName q.authority with
    | nil =>
      rw [ha] at e
      simp only [List.nil_append, List.cons.injEq, true_and] at e
      rw [e] at h2
      simp at h2
    | cons x xs =>
      rw [ha] at e h1
      simp only [List.cons_append, List.cons.injEq] at e
      rw [e.1] at h1
      simp at h1

theorem utf8_slash_mem {cs : List Char} (h : (47 : UInt8) ∈ utf8 cs) : '/' ∈ cs := by
  unfold utf8 at h
  obtain ⟨c, hc, hb⟩ := List.mem_flatMap.mp h
  have : c = '/' := by
    rw [String.utf8EncodeChar.eq_def] at hb
    apply char_ext_nat
    have hv : c.val.toNat = c.toNat := rfl
    simp only at hb
    generalize c.val.toNat = n at hb hv
    split at hb
    · simp only [List.mem_cons, List.not_mem_nil, or_false] at hb
      have h2 := congrArg UInt8.toNat hb
      simp at h2
      rw [← hv]
      show n = 47
      omega
    · split at hb
      · simp only [List.mem_cons, List.not_mem_nil, or_false] at hb
        rcases hb with h | h <;> have h2 := congrArg UInt8.toNat h <;> simp at h2 <;> omega
      · split at hb
        · simp only [List.mem_cons, List.not_mem_nil, or_false] at hb
          rcases hb with h | h | h <;> have h2 := congrArg UInt8.toNat h <;> simp at h2 <;> omega
        · simp only [List.mem_cons, List.not_mem_nil, or_false] at hb
          rcases hb with h | h | h | h <;> have h2 := congrArg UInt8.toNat h <;> simp at h2 <;> omega
  rw [← this]; exact hc

/-- Names of databases are safe, except the empty name. -/
theorem safe_database {name : String} (h : validateName name = true) (hne : name ≠ "") : Safe (strBytes name) := by
  have hdot : ∀ s : String, s.toList.head? = some '.' → strBytes name ≠ strBytes s := by
    intro s hs e
    have := strBytes_inj e
    subst this
    exact Storage.validName_head h hs
  refine ⟨?_, ?_, ?_, ?_⟩
  · intro e
    exact hne (strBytes_inj (t := "") e)
  · rw [strBytes_eq]
    exact fun hm => Storage.validName_noSlash h (utf8_slash_mem hm)
  · have := hdot "." rfl
    exact this
  · have := hdot ".." rfl
    exact this

/-! ## What a backup loses -/

theorem load_stores_sub {os : List (Addr × Bytes)} {l : Loc} {a : Addr} {o : Bytes}
    (h : (l.stores os).load a = some o) : l.load a = some o ∨ (a, o) ∈ os := by
  induction os generalizing l with
  | nil => exact .inl h
  | cons p os ih =>
    rcases ih (l := l.store p.1 p.2) h with h1 | h1
    · rw [load_store] at h1
      split at h1
      · rename_i e
        cases h1
        subst e
        exact .inr (List.mem_cons_self ..)
      · exact .inl h1
    · exact .inr (List.mem_cons_of_mem _ h1)

/-- **C49 is violated** (finding F23): a collection whose documents all have ids that cannot be read back from
their text, for example `a$z`, is empty after a successful restore. -/
theorem C49_violated_dollar {pot : Pot F} {name : String} {d d₁ d' : Database F} {c : QName}
    (hids : ∀ p ∈ (d.docs.trees.docs c).list, DocId.parse (DocId.display p.2.header.id) = none)
    (hb : Blank d₁) (hc : c ≠ databaseCollection) {listing : Bytes → List Bytes}
    {tid : Nat} {ck : Bytes → KV.Clock}
    (hr : restoreDatabase pot (backup pot [(name, d)] []) name listing tid ck d₁ = (true, d')) :
    (∀ id, Store.getDoc d'.docs c id = none) ∧ DocId.parse (DocId.display [97, 36, 122]) = none := by
  refine ⟨fun id => ?_, by decide⟩
  unfold restoreDatabase at hr
  cases hacc : Store.applyToRoots d₁.schema d₁.docs tid (restoreOps (backup pot [(name, d)] []) name d₁ listing) with
  | mk a docs =>
    rw [hacc] at hr
    cases a with
    | error e => simp at hr
    | ok rs =>
      simp only [Prod.mk.injEq] at hr
      obtain ⟨-, rfl⟩ := hr
      show Store.getDoc docs c id = none
      rw [restoreOps_eq] at hacc
      rw [(apply_inserts _ hacc).2 c id, hb.docs c hc id]
      intro x hx
      unfold restoreList at hx
      rw [List.mem_flatMap] at hx
      obtain ⟨c', -, hm⟩ := hx
      rw [List.mem_filterMap] at hm
      obtain ⟨n, -, hm⟩ := hm
      rw [Option.bind_eq_some_iff] at hm
      obtain ⟨id', hid, hm⟩ := hm
      rw [Option.map_eq_some_iff] at hm
      obtain ⟨o, ho, e⟩ := hm
      cases e
      rw [backup_eq] at ho
      rcases load_stores_sub ho with ho | ho
      · cases ho
      · unfold allObjects at ho
        simp only [List.flatMap_cons, List.flatMap_nil, List.append_nil] at ho
        rw [mem_objects] at ho
        rcases ho with ⟨c2, -, hm⟩ | ⟨-, hm⟩
        · unfold docObjects at hm
          obtain ⟨p, hp, e⟩ := List.mem_map.mp hm
          simp only [Prod.mk.injEq, Addr.mk.injEq] at e
          obtain ⟨⟨-, -, e1, e2⟩, -⟩ := e
          have := encodeQ_inj e1
          subst this
          rw [← e2, hids p hp] at hid
          cases hid
        · obtain ⟨k, e, ns, key, -, -, hadr⟩ := mem_kvObjects.mp hm
          have := congrArg (fun p => p.1.container) hadr
          exact container_ne c this

/-- **C49 is violated** (finding F24): nothing of a database whose schema has no collections is stored. -/
theorem C49_violated_no_collections (pot : Pot F) (name : String) (d : Database F) (h : d.schema.collections = [])
    (l : Loc) : backup pot [(name, d)] l = l := by
  simp [backup, objects, h, Loc.stores]

/-- **C49 is violated**: an entry whose namespace contains `._key._`, or ends with `._key`, is restored under
another name, for example `a._key` / `k` as `a` / `key._k`. -/
theorem C49_violated_namespace :
    (∀ ns key, ¬ PlainSpace ns → splitMarker (ns ++ marker ++ key) ≠ some (ns, key)) ∧
    splitMarker ([97, 46, 95, 107, 101, 121] ++ marker ++ [107]) = some ([97], [107, 101, 121, 46, 95, 107]) :=
  ⟨fun ns key h e => h ((splitMarker_iff ns key).mp e), by decide⟩

/-- **C49 is violated** (finding F58): databases without data are not recreated. -/
theorem C49_violated_empty_database {pot : Pot F} (hpot : LawfulPot pot) {σ τ τ' : Storage F} (hn : Named σ)
    (h : ∀ p ∈ σ, Portable p.2) {registered : QName → Option Store.Schema}
    (hreg : ∀ p ∈ σ, registered p.2.schemaName = some p.2.schema) (hτ : Ready σ τ) {env : Env}
    (hl : ∀ s d c, ListsStored (backup pot σ []) s d c (env.listing s d c)) {dbs : List (QName × String)}
    (hdb : ListsDatabases (backup pot σ []) dbs)
    (hr : restore pot registered env (backup pot σ []) dbs τ = (true, τ')) {name : String} {d : Database F}
    (hd : (name, d) ∈ σ) (he : Empty d) (hnew : τ.get name = none) : τ'.get name = none := by
  rw [(C49_backup_restore_partial hpot hn h hreg hτ hl hdb hr name d hd).2 he, hnew]

/-- **C49 is violated** (finding F56): a database may be named `_kv`, but is not listed by a directory. -/
theorem C49_violated_kv_database :
    validateName "_kv" = true ∧ ∀ (fs : Fs) (base : Path) (s : QName), ¬ fs.listsDatabase base s "_kv" :=
  ⟨by decide, fun _ _ _ h => h.2.2 (by decide)⟩

/-- **C49 is violated** (finding F57): with a directory, a document id `../x/y` is stored as the document `y` of
the collection `x`. -/
theorem C49_violated_path_escape (base : Path) (s : QName) (d : String) {c x y : Bytes} (hs : Safe (encodeQ s))
    (hd : Safe (strBytes d)) (hc : Safe c) (hx : Safe x) (hy : Safe y) :
    join (folder base s d c) ([46, 46, 47] ++ x ++ 47 :: y) = join (folder base s d x) y := by
  unfold folder
  rw [join_safe hs, join_safe hd, join_safe hc, join_safe hx, join_safe hy]
  have hsplit : ∀ z w : Bytes, (47 : UInt8) ∉ z → splitSlash (z ++ 47 :: w) = z :: splitSlash w := by
    intro z w hz
    induction z with
    | nil => simp [splitSlash]
    | cons b z ih =>
      simp only [List.mem_cons, not_or] at hz
      have hb : b ≠ 47 := fun e => hz.1 e.symm
      simp [splitSlash, hb, ih hz.2]
  unfold join
  rw [if_neg (by simp)]
  have e : ([46, 46, 47] ++ x ++ 47 :: y : Bytes) = [46, 46] ++ 47 :: (x ++ 47 :: y) := by simp
  rw [e, hsplit _ _ (by decide), hsplit _ _ hx.2.1, splitSlash_safe hy.2.1]
  obtain ⟨x1, x2, x3, x4⟩ := hx
  obtain ⟨y1, y2, y3, y4⟩ := hy
  simp only [List.foldl_cons, List.foldl_nil, resolveStep, x1, x3, x4, y1, y3, y4]
  simp

/-- **C49 is violated** (finding F57): with a new directory, an object whose name contains a slash, such as the
document id `a/b`, cannot be stored. -/
theorem C49_violated_path_slash {fs : Fs} {base : Path} (hf : Fresh fs base) {s : QName} {d : String} {c x y : Bytes}
    (hs : Safe (encodeQ s)) (hd : Safe (strBytes d)) (hc : Safe c) (hx : Safe x) (hy : Safe y) (o : Bytes) :
    fs.store base ⟨s, d, c, x ++ 47 :: y⟩ o = none := by
  unfold Fs.store folder
  simp only
  rw [join_safe hs, join_safe hd, join_safe hc]
  have hj : join (base ++ [encodeQ s] ++ [strBytes d] ++ [c]) (x ++ 47 :: y) =
      base ++ [encodeQ s, strBytes d, c, x, y] := by
    have hsplit : ∀ z w : Bytes, (47 : UInt8) ∉ z → splitSlash (z ++ 47 :: w) = z :: splitSlash w := by
      intro z w hz
      induction z with
      | nil => simp [splitSlash]
      | cons b z ih =>
        simp only [List.mem_cons, not_or] at hz
        have hb : b ≠ 47 := fun e => hz.1 e.symm
        simp [splitSlash, hb, ih hz.2]
    unfold join
    rw [if_neg, hsplit _ _ hx.2.1, splitSlash_safe hy.2.1]
    · obtain ⟨x1, x2, x3, x4⟩ := hx
      obtain ⟨y1, y2, y3, y4⟩ := hy
      simp [resolveStep, x1, x3, x4, y1, y3, y4]
    · intro hh
      obtain ⟨x1, x2, -⟩ := hx
      cases x with
      | nil => exact x1 rfl
      | cons b x =>
        simp only [List.cons_append, List.head?_cons, Option.some.injEq] at hh
        subst hh
        simp at x2
  rw [hj]
  have e3 : base ++ [encodeQ s] ++ [strBytes d] ++ [c] = base ++ [encodeQ s, strBytes d, c] := by simp
  rw [e3]
  unfold Fs.createDirAll
  split
  · rfl
  · rw [Option.bind_some]
    unfold Fs.write
    rw [if_neg]
    rintro ⟨-, h2, -⟩
    have hdl : (base ++ [encodeQ s, strBytes d, c, x, y]).dropLast = base ++ [encodeQ s, strBytes d, c, x] := by
      have : base ++ [encodeQ s, strBytes d, c, x, y] = (base ++ [encodeQ s, strBytes d, c, x]) ++ [y] := by simp
      rw [this, List.dropLast_concat]
    rw [hdl] at h2
    simp only [(hf.2 [encodeQ s, strBytes d, c, x] (by simp)).2, Bool.false_or] at h2
    have := (List.isPrefixOf_iff_prefix.mp h2).length_le
    simp only [List.length_append, List.length_cons, List.length_nil] at this
    omega

/-! ## The hypotheses can be met -/

theorem exists_nodup {α : Type} (L : List α) : ∃ L' : List α, L'.Nodup ∧ ∀ x, x ∈ L' ↔ x ∈ L := by
  induction L with
  | nil => exact ⟨[], by simp, by simp⟩
  | cons a L ih =>
    obtain ⟨L', h1, h2⟩ := ih
    by_cases h : a ∈ L'
    · refine ⟨L', h1, fun x => ?_⟩
      rw [List.mem_cons, h2 x]
      constructor
      · exact .inr
      · rintro (rfl | hx)
        · exact (h2 _).mp h
        · exact hx
    · exact ⟨a :: L', List.nodup_cons.mpr ⟨h, h1⟩, fun x => by rw [List.mem_cons, List.mem_cons, h2]⟩

theorem load_isSome (l : Loc) (a : Addr) : (l.load a).isSome ↔ ∃ o, (a, o) ∈ l := by
  unfold Loc.load
  rw [Option.isSome_map, List.find?_isSome]
  constructor
  · rintro ⟨⟨b, o⟩, hm, hb⟩
    simp only [beq_iff_eq] at hb
    subst hb
    exact ⟨o, hm⟩
  · rintro ⟨o, hm⟩
    exact ⟨_, hm, by simp⟩

/-- Every location has listings. -/
theorem exists_listings (l : Loc) :
    (∀ s d c, ∃ names, ListsStored l s d c names) ∧ ∃ dbs, ListsDatabases l dbs := by
  constructor
  · intro s d c
    obtain ⟨L, h1, h2⟩ := exists_nodup (l.filterMap fun p : Addr × Bytes =>
      if p.1.schema = s ∧ p.1.database = d ∧ p.1.container = c then some p.1.name else none)
    refine ⟨L, h1, fun n => ?_⟩
    rw [h2, load_isSome, List.mem_filterMap]
    constructor
    · rintro ⟨⟨⟨s', d', c', n'⟩, o⟩, hm, he⟩
      split at he
      · rename_i h
        obtain ⟨rfl, rfl, rfl⟩ := h
        cases he
        exact ⟨o, hm⟩
      · cases he
    · rintro ⟨o, hm⟩
      exact ⟨_, hm, by simp⟩
  · obtain ⟨L, h1, h2⟩ := exists_nodup (l.map fun p : Addr × Bytes => (p.1.schema, p.1.database))
    refine ⟨L, h1, fun s d => ?_⟩
    rw [h2, List.mem_map]
    constructor
    · rintro ⟨⟨⟨s', d', c, n⟩, o⟩, hm, he⟩
      cases he
      exact ⟨c, n, (load_isSome _ _).mpr ⟨o, hm⟩⟩
    · rintro ⟨c, n, h⟩
      obtain ⟨o, ho⟩ := (load_isSome _ _).mp h
      exact ⟨_, ho, rfl⟩

/-- A lawful encoding exists. -/
def exNat (n : Nat) (r : Bytes) : Bytes := List.replicate n 1 ++ 0 :: r

def exRead : Bytes → Nat × Bytes
  | [] => (0, [])
  | b :: r => if b = 1 then ((exRead r).1 + 1, (exRead r).2) else (0, r)

theorem exRead_nat (n : Nat) (r : Bytes) : exRead (exNat n r) = (n, r) := by
  induction n with
  | zero => simp [exNat, exRead]
  | succ n ih =>
    show exRead (1 :: exNat n r) = _
    simp [exRead, ih]

def exPot : Pot Unit where
  enc e := exNat e.lastUpdated (exNat (match e.expiration with | none => 0 | some t => t + 1) (match e.value with
    | .bytes b => exNat 0 b
    | .numeric (.integer i) => exNat 1 (exNat i.toUInt64.toNat [])
    | .numeric (.unsigned u) => exNat 2 (exNat u.toNat [])
    | .numeric (.float _) => exNat 3 []))
  dec b :=
    let l := exRead b
    let x := exRead l.2
    let t := exRead x.2
    let v := exRead t.2
    some ⟨match t.1 with
      | 0 => .bytes t.2
      | 1 => .numeric (.integer ⟨UInt64.ofNat v.1⟩)
      | 2 => .numeric (.unsigned (UInt64.ofNat v.1))
      | _ => .numeric (.float ()), match x.1 with | 0 => none | n + 1 => some n, l.1⟩

theorem exPot_lawful : LawfulPot exPot := by
  rintro ⟨v, ex, lu⟩
  rcases v with b | (i | u | f) <;> cases ex <;> simp [exPot, exRead_nat]

/-- A database with a document and an entry that expires. -/
def exSource : Database Unit where
  schemaName := ⟨"ex", "schema"⟩
  schema := Store.exSchema
  docs := ⟨{ Store.Trees.empty with docs := (upd Store.Trees.empty.docs Store.exC
    (OMap.empty.set [1] (.new (fun x => x) [1] [5]))) }, []⟩
  kv := .new .immediate 0 (OMap.empty.set [110, 0, 107] ⟨.bytes [1], some 10, 2⟩) []

theorem exSource_doc (c : QName) (id : Bytes) (doc : Store.Document)
    (h : Store.getDoc exSource.docs c id = some doc) :
    c = Store.exC ∧ id = [1] ∧ doc = .new (fun x => x) [1] [5] := by
  have h' : ((upd Store.Trees.empty.docs Store.exC
    (OMap.empty.set [1] (.new (fun x => x) [1] [5]))) c).get id = some doc := h
  rw [Store.get_upd] at h'
  split at h'
  · rename_i hc
    rw [OMap.get_set] at h'
    split at h'
    · rename_i hid
      cases h'
      exact ⟨hc, hid.symm, rfl⟩
    · cases h'
  · cases h'

theorem exSource_entry (k : Bytes) (e : KV.Entry Unit) (h : exSource.kv.get k = some e) :
    k = [110, 0, 107] ∧ e = ⟨.bytes [1], some 10, 2⟩ := by
  have h' : (OMap.empty.set [110, 0, 107] (⟨.bytes [1], some 10, 2⟩ : KV.Entry Unit)).get k = some e := h
  rw [OMap.get_set] at h'
  split at h'
  · rename_i hk
    cases h'
    exact ⟨hk.symm, rfl⟩
  · cases h'

theorem exSource_portable : Portable exSource where
  own c id doc h := by
    obtain ⟨-, rfl, rfl⟩ := exSource_doc c id doc h
    rfl
  known c id doc h := by
    obtain ⟨rfl, -, -⟩ := exSource_doc c id doc h
    decide
  ids c id doc h := by
    obtain ⟨-, rfl, -⟩ := exSource_doc c id doc h
    exact ⟨by decide, fun ha => absurd (ha.1 1 (by simp)) (by decide)⟩
  keys k e h := by
    obtain ⟨rfl, -⟩ := exSource_entry k e h
    exact ⟨[110], [107], rfl, by decide, by unfold PlainSpace; decide⟩
  clean k e h := by
    obtain ⟨-, rfl⟩ := exSource_entry k e h
    rfl
  loop k e h := by
    show [_] ≠ []
    simp

/-- The hypotheses of `C49_backup_restore_partial` and `C49_restore_succeeds_partial` are met, and its
conclusion is about a document and an entry. -/
example : ∃ env dbs τ', restore exPot (fun _ => some Store.exSchema) env (backup exPot [("db", exSource)] []) dbs [] =
      (true, τ') ∧ ∃ d', τ'.get "db" = some d' ∧ Restored env "db" exSource d' ∧
      (Store.getDoc exSource.docs Store.exC [1]).map (·.contents) = some [5] ∧ ¬ Empty exSource := by
  obtain ⟨hl, dbs, hdb⟩ := exists_listings (backup exPot [("db", exSource)] [])
  have hl' : ∃ f : QName → String → Bytes → List Bytes, ∀ s d c, ListsStored (backup exPot [("db", exSource)] []) s d c (f s d c) :=
    ⟨fun s d c => (hl s d c).choose, fun s d c => (hl s d c).choose_spec⟩
  obtain ⟨f, hf⟩ := hl'
  have hp : ∀ p ∈ [("db", exSource)], Portable p.2 := by
    intro p hm
    rw [List.mem_singleton] at hm
    subst hm
    exact exSource_portable
  have hn : Named [("db", exSource)] := by simp [Named]
  have hreg : ∀ p ∈ [("db", exSource)], (fun _ => some Store.exSchema : QName → Option Store.Schema) p.2.schemaName = some p.2.schema := by
    intro p hm
    rw [List.mem_singleton] at hm
    subst hm
    rfl
  have hready : Ready [("db", exSource)] [] := by
    intro name d d₁ _ h
    cases h
  let env : Env := ⟨f, fun _ => 1, fun _ _ => ⟨3, 3, 3⟩, fun _ => 0⟩
  obtain ⟨τ', hr⟩ := C49_restore_succeeds_partial (registered := fun _ => some Store.exSchema) exPot_lawful hn hp hreg hready (env := env) hf hdb
    (by intro p hm; rw [List.mem_singleton] at hm; subst hm; show validateName "db" = true; decide)
    (by
      intro p hm c v hv
      rw [List.mem_singleton] at hm
      subst hm
      cases hv)
    (by
      intro p hm
      rw [List.mem_singleton] at hm
      subst hm
      show ([_] : List QName).Nodup ∧ ([_] : List QName).length ≤ 65536
      simp)
  have hne : ¬ Empty exSource := by
    intro h
    have h1 := h.2 [110, 0, 107]
    have h2 : exSource.kv.get [110, 0, 107] = some ⟨.bytes [1], some 10, 2⟩ := rfl
    rw [h2] at h1
    cases h1
  obtain ⟨d', h1, h2⟩ := (C49_backup_restore_partial (registered := fun _ => some Store.exSchema) exPot_lawful hn hp hreg hready hf hdb hr "db" exSource
    (by simp)).1 hne
  exact ⟨env, dbs, τ', hr, d', h1, h2, rfl, hne⟩

/-- The hypotheses of `C49_path_location_partial`: an address with the name of the example's document. -/
example : SafeAddr ⟨⟨"ex", "schema"⟩, "db", encodeQ Store.exC, DocId.display [1]⟩ ∧
    Fresh ⟨fun p => p == [] || p == [[116]], fun _ => none⟩ [[116]] := by
  refine ⟨⟨safe_encodeQ (.inl (by decide)), safe_database (by decide) (by decide), safe_encodeQ (.inl (by decide)), ?_⟩, ?_⟩
  · unfold Safe; decide
  · refine ⟨fun _ _ => rfl, fun q hq => ⟨rfl, ?_⟩⟩
    cases q with
    | nil => exact absurd rfl hq
    | cons x q => simp

end Bonsai.Backup
