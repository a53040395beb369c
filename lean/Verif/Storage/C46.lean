import Verif.Storage.Databases

/-!
# C46: database names confine storage to their own directory
-/
set_option linter.unusedSimpArgs false
set_option linter.unusedSectionVars false

namespace Bonsai.Storage
open Bonsai Bonsai.Names

variable {S : Type} [DecidableEq S]

/-! ## Specification -/

/-- The own directory of a database: `storage path / name`. -/
def ownDir (st : St S) (name : String) : Path := st.base ++ [name.toList]

/-- Going from `st` to `st'`, only files below one of the directories changed. -/
def OnlyTouches (st st' : St S) (dirs : List Path) : Prop :=
  ∀ q, st'.fs q ≠ st.fs q → ∃ d ∈ dirs, d <+: q

/-- What callers can observe: databases, files and open handles. -/
def Unchanged (st st' : St S) : Prop :=
  st'.fs = st.fs ∧ st'.records = st.records ∧ st'.available = st.available

/-! ## Paths of valid names -/

theorem setAt_self {A B : Type} [DecidableEq A] (f : A → B) (a : A) (b : B) : setAt f a b a = b := by
  simp [setAt]

theorem setAt_ne {A B : Type} [DecidableEq A] (f : A → B) {a x : A} (b : B) (h : x ≠ a) :
    setAt f a b x = f x := by simp [setAt, h]

theorem overlay_touches (fs : Path → Option Bytes) (dir : Path) (new : Path → Option Bytes) (q : Path)
    (h : overlay fs dir new q ≠ fs q) : dir <+: q := by
  unfold overlay at h
  split at h
  · assumption
  · exact absurd rfl h

theorem validName_noSlash {name : String} (h : validateName name = true) : '/' ∉ name.toList := by
  intro hm
  unfold validateName at h
  simp only [List.all_eq_true] at h
  obtain ⟨i, hi, he⟩ := List.getElem_of_mem hm
  have := h ('/', i) (by
    rw [List.mem_zipIdx_iff_getElem?]
    simp [List.getElem?_eq_getElem hi, he])
  simp only [validChar] at this
  have h1 : Char.isAlphanum '/' = false := by decide
  have h2 : ('/' == '_') = false := by decide
  have h3 : ('/' == '.') = false := by decide
  have h4 : ('/' == '-') = false := by decide
  simp [h1, h2, h3, h4] at this

theorem validName_head {name : String} (h : validateName name = true) : name.toList.head? ≠ some '.' := by
  intro hh
  unfold validateName at h
  cases hl : name.toList with
  | nil => simp [hl] at hh
  | cons c cs =>
    rw [hl] at h hh
    simp only [List.head?_cons, Option.some.injEq] at hh
    subst hh
    simp only [List.zipIdx_cons, List.all_cons, Bool.and_eq_true] at h
    have := h.1
    simp only [validChar] at this
    have h1 : Char.isAlphanum '.' = false := by decide
    have h2 : ('.' == '_') = false := by decide
    simp [h1, h2] at this

theorem splitSlash_noSlash {cs : List Char} (h : '/' ∉ cs) : splitSlash cs = [cs] := by
  induction cs with
  | nil => rfl
  | cons c cs ih =>
    simp only [List.mem_cons, not_or] at h
    have hc : c ≠ '/' := fun e => h.1 e.symm
    simp [splitSlash, hc, ih h.2]

/-- A valid, non-empty name is one path component below the storage's directory. -/
theorem dir_valid (st : St S) {name : String} (h : validateName name = true) (hne : name ≠ "") :
    st.dir name = ownDir st name := by
  have hs := validName_noSlash h
  have hd := validName_head h
  have hn : name.toList ≠ [] := by
    intro e
    apply hne
    exact String.toList_inj.mp (by simpa using e)
  have h0 : name.toList.head? ≠ some '/' := by
    intro e
    exact hs (List.mem_of_mem_head? e)
  have h1 : name.toList ≠ ['.'] := by rintro e; rw [e] at hd; exact hd rfl
  have h2 : name.toList ≠ ['.', '.'] := by rintro e; rw [e] at hd; exact hd rfl
  unfold St.dir join ownDir
  rw [splitSlash_noSlash hs, if_neg h0]
  simp [resolveStep, hn, h1, h2]

theorem adminName_valid : validateName adminName = true := by decide

theorem dir_admin (st : St S) : st.dir adminName = ownDir st adminName :=
  dir_valid st adminName_valid (by decide)

/-! ## C46 -/

/-- **C46**: a name that is not made of ASCII letters and digits (with `_` first, or `.` and `-` later)
is rejected by `create_database`, and nothing changes. -/
theorem C46_invalid_names_rejected (st : St S) (name : String) (schema : S) (o : Bool)
    (adm : Path → Option Bytes) (h : validateName name = false) :
    st.create name schema o adm = (false, st) := by
  simp [St.create, h]

/-- The accepted names, in words. -/
theorem C46_valid_names (name : String) :
    validateName name = true ↔ ∀ i (h : i < name.toList.length),
      (name.toList[i]).isAlphanum = true ∨ (i = 0 ∧ name.toList[i] = '_') ∨
        (0 < i ∧ (name.toList[i] = '.' ∨ name.toList[i] = '-')) := by
  unfold validateName
  simp only [List.all_eq_true]
  constructor
  · intro h i hi
    have := h (name.toList[i], i) (by
      rw [List.mem_zipIdx_iff_getElem?]
      simp [List.getElem?_eq_getElem hi])
    simpa [validChar, or_assoc, and_or_left] using this
  · rintro h ⟨c, i⟩ hm
    rw [List.mem_zipIdx_iff_getElem?] at hm
    obtain ⟨hi, he⟩ := List.getElem?_eq_some_iff.mp hm
    have := h i hi
    simp only at he
    rw [he] at this
    simpa [validChar, or_assoc, and_or_left] using this

/-- **C46**: creating a database only writes the admin database's files; it changes no other database's
record; a failed creation changes nothing. -/
theorem C46_create_confined (st : St S) (name : String) (schema : S) (o : Bool)
    (adm : Path → Option Bytes) :
    OnlyTouches st (st.create name schema o adm).2 [ownDir st adminName] ∧
      (∀ other, other ≠ name → (st.create name schema o adm).2.records other = st.records other ∧
        (st.create name schema o adm).2.available other = st.available other) ∧
      ((st.create name schema o adm).1 = false → (st.create name schema o adm).2 = st) ∧
      ((st.create name schema o adm).1 = true → validateName name = true ∧
        ((st.create name schema o adm).2.available name).isSome) := by
  unfold St.create
  split
  · rename_i hv
    split
    · cases ha : st.available name with
      | none =>
        refine ⟨?_, ?_, by simp, fun _ => ⟨hv, by simp [setAt_self]⟩⟩
        · intro q hq
          exact ⟨_, List.mem_singleton.mpr rfl, dir_admin st ▸ overlay_touches _ _ _ _ hq⟩
        · intro other hne
          exact ⟨setAt_ne _ _ hne, setAt_ne _ _ hne⟩
      | some s =>
        exact ⟨fun q hq => absurd rfl hq, fun _ _ => ⟨rfl, rfl⟩, fun _ => rfl, fun _ => ⟨hv, by simp [ha]⟩⟩
    · exact ⟨fun q hq => absurd rfl hq, fun _ _ => ⟨rfl, rfl⟩, fun _ => rfl, by simp⟩
  · exact ⟨fun q hq => absurd rfl hq, fun _ _ => ⟨rfl, rfl⟩, fun _ => rfl, by simp⟩

/-- A name is taken only once: creating an existing database never changes it, and says so. -/
theorem C46_create_existing (st : St S) (name : String) (schema : S) (o : Bool)
    (adm : Path → Option Bytes) (h : (st.available name).isSome) :
    (st.create name schema o adm).2 = st ∧
      ((st.create name schema o adm).1 = true → o = true) := by
  unfold St.create
  cases ha : st.available name with
  | none => simp [ha] at h
  | some s => split <;> (try split) <;> simp_all

/-- In every reachable state the known databases have valid names, and the in-memory list agrees with
the records. -/
theorem available_valid {st st' : St S} {es : List (Event S)} (h : Run st es st') (hf : Fresh st) :
    (∀ n, (st'.available n).isSome → validateName n = true ∧ st'.records n = st'.available n) ∧
      (∀ n, (st'.records n).isSome → validateName n = true) ∧ st'.base = st.base := by
  induction h with
  | nil => exact ⟨fun n hn => by simp [hf.available] at hn, fun n hn => by simp [hf.records] at hn, rfl⟩
  | @snoc st' es e h hu ih =>
    obtain ⟨i1, i2, i3⟩ := ih
    cases e with
    | create n s o a =>
      simp only [St.next, St.create]
      split
      · rename_i hv
        split
        · split
          · refine ⟨fun m hm => ?_, fun m hm => ?_, i3⟩
            · by_cases hmn : m = n
              · subst hmn; exact ⟨hv, by simp [setAt_self]⟩
              · simp only [setAt_ne _ _ hmn] at hm ⊢
                exact i1 m hm
            · by_cases hmn : m = n
              · subst hmn; exact hv
              · simp only [setAt_ne _ _ hmn] at hm
                exact i2 m hm
          · exact ⟨i1, i2, i3⟩
        · exact ⟨i1, i2, i3⟩
      · exact ⟨i1, i2, i3⟩
    | «open» n e f =>
      simp only [St.next, St.open]
      split
      · exact ⟨i1, i2, i3⟩
      · split
        · split
          · split
            · exact ⟨i1, i2, i3⟩
            · exact ⟨i1, i2, i3⟩
          · exact ⟨i1, i2, i3⟩
        · exact ⟨i1, i2, i3⟩
    | use n f => exact ⟨i1, i2, i3⟩
    | delete n a =>
      simp only [St.next, St.delete]
      split
      · refine ⟨fun m hm => ?_, fun m hm => ?_, i3⟩
        · by_cases hmn : m = n
          · subst hmn; simp [setAt_self] at hm
          · simp only [setAt_ne _ _ hmn] at hm ⊢
            exact i1 m hm
        · by_cases hmn : m = n
          · subst hmn; simp [setAt_self] at hm
          · simp only [setAt_ne _ _ hmn] at hm
            exact i2 m hm
      · refine ⟨fun m hm => ?_, i2, i3⟩
        by_cases hmn : m = n
        · subst hmn; simp [setAt_self] at hm
        · simp only [setAt_ne _ _ hmn] at hm ⊢
          exact i1 m hm
    | restart =>
      exact ⟨fun m hm => ⟨i2 m hm, rfl⟩, i2, i3⟩

theorem openRoots_valid {st st' : St S} {es : List (Event S)} (h : Run st es st') (hf : Fresh st) :
    ∀ n, st'.openRoots n = true → validateName n = true := by
  induction h with
  | nil => intro n hn; simp [hf.openRoots] at hn
  | @snoc st' es e h hu ih =>
    have hav := (available_valid h hf).1
    intro n hn
    cases e with
    | create m s o a =>
      simp only [St.next, St.create] at hn
      split at hn
      · split at hn
        · split at hn
          · exact ih n hn
          · exact ih n hn
        · exact ih n hn
      · exact ih n hn
    | «open» m e f =>
      simp only [St.next, St.open] at hn
      split at hn
      · exact ih n hn
      · rename_i sc ha
        split at hn
        · split at hn
          · split at hn
            · exact ih n hn
            · by_cases hmn : n = m
              · subst hmn; exact (hav n (by simp [ha])).1
              · simp only [setAt_ne _ _ hmn] at hn
                exact ih n hn
          · exact ih n hn
        · exact ih n hn
    | use m f => exact ih n hn
    | delete m a =>
      have : (st'.delete m a).2.openRoots n = true := hn
      unfold St.delete at this
      simp only at this
      split at this
      · by_cases hmn : n = m
        · subst hmn; simp [setAt_self] at this
        · simp only [setAt_ne _ _ hmn] at this
          exact ih n this
      · by_cases hmn : n = m
        · subst hmn; simp [setAt_self] at this
        · simp only [setAt_ne _ _ hmn] at this
          exact ih n this
    | restart => simp [St.next, St.restart] at hn

/-- **C46** (partial): in every reachable state, opening and using a database touches only its own
directory; a failed opening changes nothing.  (Missing: the database named with the empty string.) -/
theorem C46_open_and_use_confined_partial (st st' : St S) (es : List (Event S)) (h : Run st es st')
    (hf : Fresh st) (name : String) (hne : name ≠ "") (expected : Option S)
    (new : Path → Option Bytes) :
    OnlyTouches st' (st'.open name expected new).2 [ownDir st' name] ∧
      ((st'.open name expected new).1 = false → (st'.open name expected new).2 = st') ∧
      (st'.openRoots name = true → OnlyTouches st' (st'.use name new) [ownDir st' name]) := by
  have hav := (available_valid h hf).1
  refine ⟨?_, ?_, ?_⟩
  · intro q hq
    refine ⟨_, List.mem_singleton.mpr rfl, ?_⟩
    unfold St.open at hq
    split at hq
    · exact absurd rfl hq
    · rename_i sc ha
      have hv := (hav name (by simp [ha])).1
      split at hq
      · split at hq
        · split at hq
          · exact absurd rfl hq
          · exact dir_valid st' hv hne ▸ overlay_touches _ _ _ _ hq
        · exact absurd rfl hq
      · exact absurd rfl hq
  · unfold St.open
    split
    · intro _; rfl
    · split
      · split
        · split <;> simp
        · intro _; rfl
      · intro _; rfl
  · intro ho q hq
    refine ⟨_, List.mem_singleton.mpr rfl, ?_⟩
    exact dir_valid st' (openRoots_valid h hf name ho) hne ▸ overlay_touches _ _ _ _ hq

/-- **C46** (partial): deleting an existing database touches only its own directory and the admin
database's, removes its files and its record, and leaves the other databases' records and files alone.
(Missing: names without a record, see `C46_violated_delete_unknown`, and the empty name.) -/
theorem C46_delete_confined_partial (st st' : St S) (es : List (Event S)) (h : Run st es st')
    (hf : Fresh st) (name : String) (hne : name ≠ "") (hr : (st'.records name).isSome)
    (adm : Path → Option Bytes) :
    let st'' := (st'.delete name adm).2
    (st'.delete name adm).1 = true ∧
      OnlyTouches st' st'' [ownDir st' name, ownDir st' adminName] ∧
      (name ≠ adminName → ∀ q, ownDir st' name <+: q → st''.fs q = none) ∧
      st''.records name = none ∧ st''.available name = none ∧ st''.openRoots name = false ∧
      (∀ other, other ≠ name → st''.records other = st'.records other ∧
        st''.available other = st'.available other ∧ st''.openRoots other = st'.openRoots other) := by
  intro st''
  have hv := (available_valid h hf).2.1 name hr
  have hdir : st'.dir name = ownDir st' name := dir_valid st' hv hne
  obtain ⟨sc, hsc⟩ := Option.isSome_iff_exists.mp hr
  have hst : st'.delete name adm = (true, { st' with
      available := setAt st'.available name none
      openRoots := setAt st'.openRoots name false
      fs := overlay (overlay st'.fs (ownDir st' name) fun _ => none) (ownDir st' adminName) adm
      records := setAt st'.records name none }) := by
    unfold St.delete
    simp only [hsc]
    rw [← hdir, ← dir_admin st']
    rfl
  have hst2 : st'' = _ := congrArg Prod.snd hst
  rw [hst2]
  refine ⟨by rw [hst], ?_, ?_, setAt_self _ _ _, setAt_self _ _ _, setAt_self _ _ _, ?_⟩
  · intro q hq
    simp only at hq
    by_cases ha : ownDir st' adminName <+: q
    · exact ⟨_, by simp, ha⟩
    · rw [show overlay (overlay st'.fs (ownDir st' name) fun _ => none) (ownDir st' adminName) adm q =
        overlay st'.fs (ownDir st' name) (fun _ => none) q by simp [overlay, ha]] at hq
      exact ⟨_, by simp, overlay_touches _ _ _ _ hq⟩
  · intro hna q hq
    simp only
    have hnot : ¬ ownDir st' adminName <+: q := by
      intro ha
      unfold ownDir at hq ha
      obtain ⟨t, ht⟩ := hq
      obtain ⟨u, hu⟩ := ha
      rw [← ht] at hu
      simp only [List.append_assoc, List.singleton_append, List.append_cancel_left_eq, List.cons.injEq] at hu
      exact hna (String.toList_inj.mp hu.1.symm)
    simp [overlay, hnot, hq]
  · intro other hno
    exact ⟨setAt_ne _ _ hno, setAt_ne _ _ hno, setAt_ne _ _ hno⟩

/-- **C46**: the directories of databases with different names do not overlap. -/
theorem C46_directories_disjoint (st : St S) (a b : String) (ha : validateName a = true)
    (hb : validateName b = true) (ha0 : a ≠ "") (hb0 : b ≠ "") (hne : a ≠ b) :
    ∀ q, ¬ (st.dir a <+: q ∧ st.dir b <+: q) := by
  rintro q ⟨h1, h2⟩
  rw [dir_valid st ha ha0] at h1
  rw [dir_valid st hb hb0] at h2
  obtain ⟨t, ht⟩ := h1
  obtain ⟨u, hu⟩ := h2
  unfold ownDir at ht hu
  rw [← ht] at hu
  simp only [List.append_assoc, List.singleton_append, List.append_cancel_left_eq, List.cons.injEq] at hu
  exact hne (String.toList_inj.mp hu.1.symm)

/-- **C46 is violated**: deleting a database that does not exist fails with `DatabaseNotFound`, but
every file below `join(storage path, name)` is gone — and the name is not validated. -/
theorem C46_violated_delete_unknown (st : St S) (name : String) (adm : Path → Option Bytes)
    (hr : st.records name = none) :
    (st.delete name adm).1 = false ∧ ∀ q, join st.base name <+: q → (st.delete name adm).2.fs q = none := by
  unfold St.delete
  simp only [hr]
  refine ⟨trivial, fun q hq => ?_⟩
  simp [overlay, St.dir, hq]

/-- The consequences: `..` is the parent directory, the empty name the storage itself, and an absolute
name any directory of the machine; `vault-keys` (the encryption keys, storage.rs:292) is a directory
of the storage. -/
theorem C46_violated_delete_escapes (base : Path) (x : List Char) :
    join (base ++ [x]) ".." = base ∧ join base "" = base ∧ join base "/etc" = ["etc".toList] ∧
      join base "vault-keys" = base ++ ["vault-keys".toList] := by
  refine ⟨?_, ?_, ?_, ?_⟩ <;> simp [join, splitSlash, resolveStep]

/-- **C46 is violated**: the empty string is a valid name; its directory is the storage's own, so
deleting that database removes every other database's files. -/
theorem C46_violated_empty_name (st : St S) (schema : S) (adm adm' : Path → Option Bytes)
    (hreg : st.registered schema = true) (hav : st.available "" = none) :
    (st.create "" schema false adm).1 = true ∧
      ((st.create "" schema false adm).2.delete "" adm').1 = true ∧
      ∀ q, st.base <+: q → ¬ ownDir st adminName <+: q →
        ((st.create "" schema false adm).2.delete "" adm').2.fs q = none := by
  have hv : validateName "" = true := by decide
  have hc : st.create "" schema false adm = (true, { st with
      fs := overlay st.fs (st.dir adminName) adm
      records := setAt st.records "" (some schema)
      available := setAt st.available "" (some schema) }) := by
    simp [St.create, hv, hreg, hav]
  rw [hc]
  refine ⟨rfl, ?_, ?_⟩
  · simp [St.delete, setAt_self]
  · intro q hq hna
    have hb : join st.base "" = st.base := (C46_violated_delete_escapes st.base []).2.1
    have hda : join st.base adminName = ownDir st adminName := dir_admin st
    simp only [St.delete, setAt_self]
    simp [overlay, St.dir, hb, hda, hna, hq]

/-- **C46 is violated**: names of the storage's own files and directories are valid database names. -/
theorem C46_violated_reserved_names :
    validateName "vault-keys" = true ∧ validateName "master-keys" = true ∧
      validateName "storage-id" = true ∧ validateName "_admin" = true := by
  refine ⟨?_, ?_, ?_, ?_⟩ <;> decide

/-! ## Non-vacuity -/
section Example

def exSt : St Nat where
  base := ["srv".toList, "db.bonsaidb".toList]
  fs := fun q => if q = ["srv".toList, "other".toList] then some [1] else none
  records := fun _ => none
  available := fun _ => none
  openRoots := fun _ => false
  registered := fun _ => true

theorem exSt_fresh : Fresh exSt := ⟨fun _ => rfl, fun _ => rfl, fun _ => rfl⟩

/-- A database is created and opened: a reachable state with a record. -/
example : ∃ st', Run exSt [.create "shop" 1 false (fun _ => some [7]), .open "shop" none (fun _ => some [8])] st' ∧
    (st'.records "shop").isSome ∧ st'.openRoots "shop" = true := by
  refine ⟨_, .snoc _ (.snoc _ (.nil exSt) (by intro n f h; cases h)) (by intro n f h; cases h), ?_, ?_⟩
  · decide
  · decide

/-- `delete_database("..")` on it removes a file that is not in the storage. -/
example : exSt.fs ["srv".toList, "other".toList] = some [1] ∧
    (exSt.delete ".." fun _ => none).1 = false ∧
    (exSt.delete ".." fun _ => none).2.fs ["srv".toList, "other".toList] = none := by
  refine ⟨by simp [exSt], (C46_violated_delete_unknown exSt ".." _ rfl).1,
    (C46_violated_delete_unknown exSt ".." _ rfl).2 _ ?_⟩
  have := (C46_violated_delete_escapes ["srv".toList] "db.bonsaidb".toList).1
  show join (["srv".toList] ++ ["db.bonsaidb".toList]) ".." <+: _
  rw [this]
  exact ⟨["other".toList], rfl⟩

example : validateName "a/b" = false ∧ validateName "../x" = false ∧ validateName "my-db.1" = true := by
  refine ⟨?_, ?_, ?_⟩ <;> decide
end Example

/-- **C46**: opening a database succeeds exactly when it exists, its schema is the requested one (if one is
requested) and is registered; a failing attempt changes nothing, a successful one touches only the database's
own files. -/
theorem C46_open_iff (st : St S) (name : String) (expected : Option S) (new : Path → Option Bytes) :
    ((st.open name expected new).1 = true ↔
      ∃ schema, st.available name = some schema ∧ (∀ e, expected = some e → e = schema) ∧
        st.registered schema = true) ∧
    ((st.open name expected new).1 = false → (st.open name expected new).2 = st) ∧
    (st.open name expected new).2.records = st.records ∧
    (st.open name expected new).2.available = st.available ∧
    ∀ q, ¬ st.dir name <+: q → (st.open name expected new).2.fs q = st.fs q := by
  unfold St.open
  cases ha : st.available name with
  | none => simp
  | some schema =>
    dsimp only
    cases expected with
    | none =>
      cases hr : st.registered schema with
      | false => simp [hr]
      | true =>
        cases ho : st.openRoots name with
        | true => simp [hr]
        | false =>
          refine ⟨by simp [hr], by simp, rfl, rfl, fun q hq => ?_⟩
          simp [overlay, hq]
    | some e =>
      by_cases he : e = schema
      · subst he
        cases hr : st.registered e with
        | false => simp [hr]
        | true =>
          cases ho : st.openRoots name with
          | true => simp [hr]
          | false =>
            refine ⟨by simp [hr], by simp, by simp, by simp, fun q hq => ?_⟩
            simp [overlay, hq]
      · have : ¬ (some e = (none : Option S) ∨ some e = some schema) := by simp [he]
        rw [if_neg this]
        simp [he]

end Bonsai.Storage
