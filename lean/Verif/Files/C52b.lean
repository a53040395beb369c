import Verif.Files.C52
import Verif.Files.C50b
import Verif.Views.C26b
import Verif.Views.C30

/-!
# C52: paths, loading, moving and renaming
-/
set_option linter.unusedSimpArgs false
set_option linter.unusedSectionVars false

namespace Bonsai.Files
open Bonsai Bonsai.Names Bonsai.Store Bonsai.Query

/-! ## Listing below a directory -/

theorem last_append_slash {p : Str} (h : p.getLast? = some '/') : ∃ q, p = q ++ ['/'] := by
  rw [List.getLast?_eq_some_iff] at h
  exact h

theorem nextChar_slash : nextChar '/' = some '0' := by decide

theorem firstByte_ge {c : Char} (h : 32 ≤ c.toNat) : ∃ x l, String.utf8EncodeChar c = x :: l ∧ 32 ≤ x.toNat := by
  have hr := char_range c
  unfold String.utf8EncodeChar
  have e1 : c.val.toNat = c.toNat := rfl
  simp only [e1]
  generalize c.toNat = n at *
  split
  · exact ⟨_, _, rfl, by rw [toNat_ofNat8 (by omega)]; omega⟩
  · split
    · exact ⟨_, _, rfl, by rw [toNat_ofNat8 (by omega)]; omega⟩
    · split
      · exact ⟨_, _, rfl, by rw [toNat_ofNat8 (by omega)]; omega⟩
      · exact ⟨_, _, rfl, by rw [toNat_ofNat8 (by omega)]; omega⟩

theorem tail_not_lt {q n : Str} {c : Char} (hc : n.head? = some c) (h32 : 32 ≤ c.toNat) (hl : (utf8 q).length ≤ 32) :
    ¬ tail q n < lenBytes (utf8 q).length := by
  cases n with
  | nil => cases hc
  | cons d n =>
    simp only [List.head?_cons, Option.some.injEq] at hc
    subst hc
    obtain ⟨x, l, hx, hge⟩ := firstByte_ge h32
    have hx0 : x ≠ 0 := by
      intro e
      rw [e] at hge
      exact absurd hge (by decide)
    have hlen : lenBytes (utf8 q).length = [UInt8.ofNat (utf8 q).length] := by
      unfold lenBytes
      rw [if_pos (by omega)]
    rw [hlen]
    unfold tail esc
    rw [utf8_cons, hx, List.cons_append]
    simp only [escapeNulls, hx0, if_false, List.cons_append, List.cons_lt_cons_iff]
    rintro (h | ⟨-, h⟩)
    · rw [UInt8.lt_iff_toNat_lt, toNat_ofNat8 (by omega)] at h
      omega
    · exact absurd h (by simp)

/-- **C52**, partial: `list_recursive` of a directory path — ending with `/`, of at most 32 bytes — returns
exactly the files whose containing path starts with it, each once, when no null characters are involved,
containing paths end with `/` (they do: `C52_names_stay_valid`) and names do not start with a control
character.  (Missing: longer paths, other names, paths that do not end with `/`; what is returned then is
`C52_list_recursive_exact`, and `C52_violated_recursive_misses` shows it is wrong.) -/
theorem C52_list_recursive_partial (cfg : Cfg) (k : FileCodec) (hk : k.Lawful) (es : OMap ViewEntry) (m : OMap Document)
    (hu : UpToDate (byPath cfg k) es m) (q : Str) (hq : '\x00' ∉ q) (hslash : q.getLast? = some '/')
    (hl : (utf8 q).length ≤ 32)
    (hn : ∀ h f, IsFile k m h f → '\x00' ∉ container f ∧ (container f).getLast? = some '/' ∧
      ∃ c, f.name.head? = some c ∧ ' ' ≤ c) :
    ∃ l, listRecursive k es q = some l ∧ (l.map fun x => x.1.id).Nodup ∧
      ∀ h f, (h, f) ∈ l ↔ ∃ f₀, IsFile k m h f₀ ∧ f = canonical f₀ ∧ q <+: container f₀ := by
  obtain ⟨q₀, rfl⟩ := last_append_slash hslash
  have hnext : nextStrRev (q₀ ++ ['/']).reverse = some ('0' :: q₀.reverse) := by
    rw [List.reverse_append]
    simp [nextStrRev, nextChar_slash]
  have hl' : (utf8 ('0' :: q₀.reverse).reverse).length ≤ 65535 := by
    have e0 : utf8 ['0'] = [48] := by decide
    simp only [List.reverse_cons, List.reverse_reverse, utf8_append, e0, utf8_slash, List.length_append,
      List.length_singleton] at hl ⊢
    omega
  obtain ⟨l, h1, h2, h3⟩ := C52_list_recursive_exact cfg k hk es m hu _ _ hq hnext (by omega) hl'
    (fun h f hf => (hn h f hf).1)
  refine ⟨l, h1, h2, fun h f => ?_⟩
  rw [h3]
  refine exists_congr fun f₀ => and_congr_right fun hf => and_congr_right fun _ => ?_
  obtain ⟨-, hs, c, hc, h32⟩ := hn h f₀ hf
  have h32' : 32 ≤ c.toNat := by
    have : (' ' : Char).toNat ≤ c.toNat := h32
    exact this
  constructor
  · rintro (⟨h, -⟩ | ⟨h, -⟩)
    · exact h
    · exfalso
      rw [h] at hs
      simp at hs
  · intro h
    refine .inl ⟨h, ?_⟩
    rintro ⟨-, hlt⟩
    exact tail_not_lt hc h32' hl hlt

/-! ## Splitting paths -/

theorem rsplitOnce_spec {s p n : Str} : rsplitOnce s = some (p, n) ↔ s = p ++ '/' :: n ∧ '/' ∉ n := by
  have hsplit : ∀ (a b : Str), '/' ∉ b → rsplitOnce (a ++ '/' :: b) = some (a, b) := by
    intro a b hb
    unfold rsplitOnce
    rw [if_pos (by simp)]
    have hr : (a ++ '/' :: b).reverse = b.reverse ++ '/' :: a.reverse := by simp
    rw [hr]
    have hb' : ∀ c ∈ b.reverse, (c != '/') = true := by
      intro c hc
      simp only [List.mem_reverse] at hc
      simp only [bne_iff_ne, ne_eq]
      rintro rfl
      exact hb hc
    rw [List.dropWhile_append_of_pos hb', List.takeWhile_append_of_pos hb']
    simp
  constructor
  · intro h
    have hm : '/' ∈ s := by
      unfold rsplitOnce at h
      split at h
      · assumption
      · cases h
    have hs : s.reverse = s.reverse.takeWhile (· != '/') ++ s.reverse.dropWhile (· != '/') :=
      (List.takeWhile_append_dropWhile).symm
    have hd : ∃ r, s.reverse.dropWhile (· != '/') = '/' :: r := by
      cases hd : s.reverse.dropWhile (· != '/') with
      | nil =>
        exfalso
        have h2 := hs
        rw [hd, List.append_nil] at h2
        have h3 := List.all_takeWhile (l := s.reverse) (p := (· != '/'))
        rw [← h2, List.all_eq_true] at h3
        have := h3 '/' (by simpa using hm)
        simp at this
      | cons c r =>
        have := List.head?_dropWhile_not (p := (· != '/')) (l := s.reverse)
        rw [hd] at this
        simp only [List.head?_cons] at this
        have hc : c = '/' := by simpa using this
        exact ⟨r, by rw [hc]⟩
    obtain ⟨r, hr⟩ := hd
    have ht : '/' ∉ s.reverse.takeWhile (· != '/') := by
      intro hin
      have := List.all_takeWhile (l := s.reverse) (p := (· != '/'))
      rw [List.all_eq_true] at this
      have := this '/' hin
      simp at this
    unfold rsplitOnce at h
    rw [if_pos hm, hr] at h
    simp only [Option.some.injEq, Prod.mk.injEq, List.drop_one, List.tail_cons] at h
    obtain ⟨rfl, rfl⟩ := h
    refine ⟨?_, by simpa using ht⟩
    have := congrArg List.reverse hs
    rw [List.reverse_reverse, hr] at this
    simpa using this
  · rintro ⟨rfl, h⟩
    exact hsplit p n h

theorem rsplitOnce_none {s : Str} : rsplitOnce s = none ↔ '/' ∉ s := by
  unfold rsplitOnce
  split <;> simp_all

theorem forceSlash_ends (p : Str) : (forceSlash p).getLast? = some '/' := by
  unfold forceSlash
  split
  · assumption
  · simp

/-- A file as the API makes it: its name is not empty and has no `/`, its containing path ends with `/`. -/
def WellNamed (f : FileRec) : Prop :=
  '/' ∉ f.name ∧ f.name ≠ [] ∧ (container f).getLast? = some '/'

theorem fullPath_eq {f : FileRec} (h : (container f).getLast? = some '/') : fullPath f = container f ++ f.name := by
  unfold fullPath
  rw [if_pos h]
  simp

/-- **C52**: creating and moving a file give valid names, whatever the arguments; so does renaming to a name
that is not empty. -/
theorem C52_names_stay_valid :
    (∀ b now md f, newFile b now md = .ok f → WellNamed f) ∧
    (∀ f p f', WellNamed f → moved f p = .ok f' → WellNamed f') ∧
    (∀ f n f', WellNamed f → n ≠ [] → renamed f n = .ok f' → WellNamed f') := by
  refine ⟨?_, ?_, ?_⟩
  · intro b now md f h
    unfold newFile at h
    split at h
    · cases h
    · rename_i hn
      simp only [not_or] at hn
      injection h with h
      subst h
      refine ⟨hn.1, hn.2, ?_⟩
      cases hb : b.path with
      | none => simp [container, hb]
      | some p => simp [container, hb, forceSlash_ends]
  · intro f p f' hw h
    unfold moved at h
    split at h
    · cases h
    · split at h
      · injection h with h
        subst h
        refine ⟨hw.1, hw.2.1, ?_⟩
        simp only [container]
        split
        · simp [forceSlash_ends]
        · simp
      · rename_i hlast
        cases hr : rsplitOnce p with
        | none => rw [hr] at h; cases h
        | some x =>
          obtain ⟨q, n⟩ := x
          rw [hr] at h
          injection h with h
          subst h
          obtain ⟨rfl, hn⟩ := rsplitOnce_spec.mp hr
          refine ⟨hn, ?_, ?_⟩
          · rintro rfl
            exact hlast (by simp)
          · simp only [container]
            split
            · simp
            · simp [forceSlash_ends]
  · intro f n f' hw hn h
    unfold renamed at h
    split at h
    · cases h
    · rename_i hs
      injection h with h
      subst h
      exact ⟨hs, hn, hw.2.2⟩

/-- The part of a path `FileBuilder::new` uses: without a `/` at its end. -/
def trimSlash (s : Str) : Str := if s.getLast? = some '/' ∧ 1 < s.length then s.dropLast else s

/-- The path has no empty component before its last one. -/
def NoEmptyParent (s : Str) : Prop := ∀ p n, s = p ++ '/' :: '/' :: n → '/' ∈ n

/-- **C52**, creating: a name without `/` at its start makes a file at the top; a path starting with `/` makes
the file with that path (without a `/` at the end).  (Partial: paths whose last component follows an empty
component are excluded; see `C52_violated_double_slash`.) -/
theorem C52_created_path_partial (s : Str) (now : BitVec 64) (md : Bytes) (f : FileRec)
    (h : newFile (Builder.new s) now md = .ok f) :
    (s.head? ≠ some '/' → fullPath f = '/' :: s) ∧
    (s.head? = some '/' → NoEmptyParent (trimSlash s) → fullPath f = trimSlash s) := by
  have hw := C52_names_stay_valid.1 _ _ _ _ h
  unfold newFile at h
  split at h
  · cases h
  rename_i hn
  simp only [not_or] at hn
  injection h with h
  refine ⟨fun hs => ?_, fun hs he => ?_⟩
  · subst h
    rw [fullPath_eq hw.2.2]
    simp [Builder.new, hs, container]
  · have hb : Builder.new s = match rsplitOnce (trimSlash s) with
        | none => ⟨none, trimSlash s⟩
        | some (p, n) => ⟨if p = [] ∨ p = ['/'] then none else some p, n⟩ := by
      unfold Builder.new
      rw [if_pos hs]
      rfl
    have hmem : '/' ∈ trimSlash s := by
      unfold trimSlash
      cases s with
      | nil => cases hs
      | cons c s =>
        simp only [List.head?_cons, Option.some.injEq] at hs
        subst hs
        split
        · rename_i hl
          cases s with
          | nil => simp at hl
          | cons d s => simp
        · simp
    cases hr : rsplitOnce (trimSlash s) with
    | none => exact absurd hmem (rsplitOnce_none.mp hr)
    | some x =>
      obtain ⟨p, n⟩ := x
      rw [hr] at hb
      obtain ⟨ht, hnn⟩ := rsplitOnce_spec.mp hr
      subst h
      rw [fullPath_eq hw.2.2]
      simp only [hb, container]
      have hplast : p.getLast? ≠ some '/' := by
        intro e
        obtain ⟨p', rfl⟩ := last_append_slash e
        exact hnn (he p' n (by rw [ht]; simp))
      by_cases hp : p = []
      · subst hp
        simp [ht]
      · have hp' : p ≠ ['/'] := by rintro rfl; exact hplast rfl
        simp [hp, hp', forceSlash, hplast, ht]

/-- **C52**, moving: to a path ending with `/` keeps the name, to another path takes that path.  (Partial: paths
whose last component follows an empty component.) -/
theorem C52_moved_path_partial (f f' : FileRec) (hw : WellNamed f) (p : Str) (h : moved f p = .ok f') :
    (p.getLast? = some '/' → fullPath f' = p ++ f.name) ∧
    (p.getLast? ≠ some '/' → NoEmptyParent p → fullPath f' = p) ∧
    f'.created = f.created ∧ f'.metadata = f.metadata := by
  have hw' := C52_names_stay_valid.2.1 _ _ _ hw h
  rw [fullPath_eq hw'.2.2]
  unfold moved at h
  split at h
  · cases h
  rename_i hhead
  simp only [ne_eq, Decidable.not_not] at hhead
  split at h
  · rename_i hl
    injection h with h
    subst h
    refine ⟨fun _ => ?_, fun h => absurd hl h, rfl, rfl⟩
    by_cases h1 : 1 < p.length
    · simp [container, h1, forceSlash, hl]
    · cases p with
      | nil => cases hhead
      | cons c p =>
        simp only [List.head?_cons, Option.some.injEq] at hhead
        cases p with
        | nil => simp [container, hhead]
        | cons d p => simp at h1
  · rename_i hl
    cases hr : rsplitOnce p with
    | none => rw [hr] at h; cases h
    | some x =>
      obtain ⟨q, n⟩ := x
      rw [hr] at h
      injection h with h
      subst h
      refine ⟨fun h => absurd h hl, fun _ he => ?_, rfl, rfl⟩
      obtain ⟨rfl, hn⟩ := rsplitOnce_spec.mp hr
      have hq : q.getLast? ≠ some '/' := by
        intro e
        obtain ⟨q', rfl⟩ := last_append_slash e
        exact hn (he q' n (by simp))
      by_cases hq0 : q = []
      · subst hq0
        simp [container]
      · simp [container, hq0, forceSlash, hq]

/-- **C52**, renaming: the containing path stays. -/
theorem C52_renamed_path (f f' : FileRec) (n : Str) (h : renamed f n = .ok f') :
    container f' = container f ∧ f'.name = n ∧ '/' ∉ n ∧ f'.created = f.created ∧ f'.metadata = f.metadata := by
  unfold renamed at h
  split at h
  · cases h
  · rename_i hs
    injection h with h
    subst h
    exact ⟨rfl, rfl, hs, rfl, rfl⟩

/-- `find` looks for the containing path and the name of a full path. -/
theorem findKey_fullPath {f : FileRec} (hw : WellNamed f) :
    findKey (fullPath f) = .ok (container f, f.name) ∧ findKey (fullPath f ++ ['/']) = .ok (container f, f.name) := by
  obtain ⟨h1, h2, h3⟩ := hw
  rw [fullPath_eq h3]
  obtain ⟨c, hc⟩ := last_append_slash h3
  rw [hc]
  have hr : rsplitOnce (c ++ ['/'] ++ f.name) = some (c, f.name) :=
    rsplitOnce_spec.mpr ⟨by simp, h1⟩
  have hl : (c ++ ['/'] ++ f.name).getLast? ≠ some '/' := by
    intro e
    obtain ⟨t, ht⟩ := last_append_slash e
    rcases List.eq_nil_or_concat f.name with hn | ⟨n, x, hn⟩
    · exact h2 hn
    · rw [List.concat_eq_append] at hn
      rw [hn, ← List.append_assoc] at ht
      have := (List.append_inj' ht rfl).2
      simp only [List.cons.injEq, and_true] at this
      apply h1
      rw [hn, this]
      simp
  constructor
  · unfold findKey
    rw [if_neg (by simp)]
    simp only [if_neg hl, hr]
  · unfold findKey
    rw [if_neg (by simp)]
    have hl' : (c ++ ['/'] ++ f.name ++ ['/']).getLast? = some '/' := List.getLast?_concat ..
    simp only [if_pos hl', List.dropLast_concat, hr]

/-! ## Loading -/

/-- No two files have the same path. -/
def DistinctPaths (k : FileCodec) (m : OMap Document) : Prop :=
  ∀ h f h' f', IsFile k m h f → IsFile k m h' f' → container f = container f' → f.name = f'.name → h = h' ∧ f = f'

/-- **C52**: loading by path.  For every path that can be looked up, the result is the stored file with the
containing path and name asked for, and none only if there is no such file. -/
theorem C52_find_exact (cfg : Cfg) (k : FileCodec) (hk : k.Lawful) (es : OMap ViewEntry) (m : OMap Document)
    (hu : UpToDate (byPath cfg k) es m) (s p n : Str) (hkey : findKey s = .ok (p, n))
    (hfits : (keyBytes p n).isSome) :
    ∃ r, find k es s = .ok r ∧
      (∀ h f, r = some (h, f) → ∃ f₀, IsFile k m h f₀ ∧ container f₀ = p ∧ f₀.name = n ∧ f = canonical f₀) ∧
      (r = none → ∀ h f, IsFile k m h f → ¬ (container f = p ∧ f.name = n)) := by
  obtain ⟨b, hb⟩ := Option.isSome_iff_exists.mp hfits
  obtain ⟨l, h1, h2, -⟩ := query_files hk hu (some (.matches_ b))
  refine ⟨l.head?, ?_, ?_, ?_⟩
  · unfold find
    simp only [hkey, hb, h1]
  · intro h f e
    obtain ⟨f₀, b', hf, hb', hs, rfl⟩ := (h2 h f).mp (List.mem_of_head? e)
    have hs : b' = b := hs
    subst hs
    obtain ⟨e1, e2⟩ := keyBytes_inj hb' hb
    exact ⟨f₀, hf, e1, e2, rfl⟩
  · rintro e h f hf ⟨e1, e2⟩
    have : (h, canonical f) ∈ l := (h2 _ _).mpr ⟨f, b, hf, by rw [e1, e2]; exact hb, rfl, rfl⟩
    rw [List.head?_eq_none_iff] at e
    rw [e] at this
    cases this

/-- **C52**: loading a stored file by its path (also with a `/` at the end) finds it. -/
theorem C52_load (cfg : Cfg) (k : FileCodec) (hk : k.Lawful) (es : OMap ViewEntry) (m : OMap Document)
    (hu : UpToDate (byPath cfg k) es m) (hd : DistinctPaths k m) (h : Header) (f : FileRec) (hf : IsFile k m h f)
    (hw : WellNamed f) :
    find k es (fullPath f) = .ok (some (h, canonical f)) ∧
    find k es (fullPath f ++ ['/']) = .ok (some (h, canonical f)) := by
  have key : ∀ s, findKey s = .ok (container f, f.name) → find k es s = .ok (some (h, canonical f)) := by
    intro s hs
    obtain ⟨b, hb⟩ := key_of_file hu hf
    obtain ⟨r, h1, h2, h3⟩ := C52_find_exact cfg k hk es m hu s _ _ hs (by rw [hb]; rfl)
    cases r with
    | none => exact absurd ⟨rfl, rfl⟩ (h3 rfl h f hf)
    | some x =>
      obtain ⟨h', f'⟩ := x
      obtain ⟨f₀, hf₀, e1, e2, rfl⟩ := h2 _ _ rfl
      obtain ⟨rfl, rfl⟩ := hd _ _ _ _ hf₀ hf e1 e2
      exact h1
  exact ⟨key _ (findKey_fullPath hw).1, key _ (findKey_fullPath hw).2⟩

end Bonsai.Files
