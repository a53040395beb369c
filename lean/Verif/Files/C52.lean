import Verif.Files.C52Keys
import Verif.Views.C34

/-!
# C52: directory listings

What `list` and `list_recursive` return, in terms of the stored files.
-/
set_option linter.unusedSimpArgs false
set_option linter.unusedSectionVars false

namespace Bonsai.Files
open Bonsai Bonsai.Names Bonsai.Store Bonsai.Query

/-- A file as listings show it: a path of `/` is shown as none (`File::containing_path` is the same). -/
def canonical (f : FileRec) : FileRec := { f with path := if container f = ['/'] then none else some (container f) }

theorem container_canonical (f : FileRec) : container (canonical f) = container f := by
  unfold canonical
  split
  · rename_i h
    rw [h]
    rfl
  · simp [container]

/-! ## Queries of the view -/

theorem query_of_upToDate {v : View} {es : OMap ViewEntry} {m : OMap Document} (hu : UpToDate v es m)
    (key : Option (QueryKey Bytes)) (order : Sort') (r : Mapped) :
    r ∈ queryByName es key order none ↔
      Selects key r.key ∧ ∃ id d, m.get id = some d ∧ expect v (some d) r.key = some ⟨r.source, r.value⟩ := by
  rw [C34_query_exact es hu.1]
  refine and_congr_right fun _ => ?_
  have hnd : ((mappingsOf (es.get r.key)).map fun x => x.source.id).Nodup := by
    cases he : es.get r.key with
    | none => simp [mappingsOf]
    | some e => exact (hu.1 _ e he).2.2
  have hfound : ∀ id, found es r.key id = findId (mappingsOf (es.get r.key)) id := by
    intro id
    unfold found
    cases es.get r.key <;> rfl
  constructor
  · intro hx
    have h1 : findId (mappingsOf (es.get r.key)) r.source.id = some ⟨r.source, r.value⟩ := by
      revert hx hnd
      generalize mappingsOf (es.get r.key) = l
      intro hnd hx
      induction l with
      | nil => cases hx
      | cons y l ih =>
        rw [List.map_cons, List.nodup_cons] at hnd
        unfold findId
        rw [List.find?_cons]
        rcases List.mem_cons.mp hx with hx | hx
        · rw [← hx]; simp
        · have : ¬ y.source.id = r.source.id := fun e => hnd.1 (List.mem_map.mpr ⟨_, hx, e.symm⟩)
          simp only [this, decide_false]
          exact ih hnd.2 hx
    rw [← hfound, (hu.2 r.source.id).2 r.key] at h1
    cases hd : m.get r.source.id with
    | none => rw [hd] at h1; cases h1
    | some d => rw [hd] at h1; exact ⟨_, d, hd, h1⟩
  · rintro ⟨id, d, hd, he⟩
    have h1 := (hu.2 id).2 r.key
    rw [hd, he, hfound] at h1
    exact List.mem_of_find?_eq_some h1

theorem expect_byPath {cfg : Cfg} {k : FileCodec} {d : Document} {key : Bytes} {x : EntryMapping} :
    expect (byPath cfg k) (some d) key = some x ↔
      ∃ f, k.dec d.contents = some f ∧ keyBytes (container f) f.name = some key ∧
        x = ⟨d.header, k.encValue (f.created, f.metadata)⟩ := by
  simp only [expect, byPath, Option.bind_some]
  cases hd : k.dec d.contents with
  | none => simp
  | some f =>
    cases hk : keyBytes (container f) f.name with
    | none => simp [hk]
    | some b =>
      by_cases hb : b = key
      · subst hb
        simp [hk, lastValue, eq_comm]
      · simp [hk, lastValue, hb]

theorem foundOf_eq {k : FileCodec} (hk : k.Lawful) {f : FileRec} {key : Bytes} (hb : keyBytes (container f) f.name = some key)
    (h : Header) : foundOf k ⟨h, key, k.encValue (f.created, f.metadata)⟩ = some (h, canonical f) := by
  simp only [foundOf, decodeKey_keyBytes hb, hk.value, Option.bind_some, Option.map_some]
  rfl

/-- Mapping a function that never fails. -/
theorem mapM_of_some {α β : Type} {f : α → Option β} : ∀ {l : List α}, (∀ a ∈ l, ∃ b, f a = some b) →
    ∃ l', l.mapM f = some l' ∧ (∀ b, b ∈ l' ↔ ∃ a ∈ l, f a = some b) ∧ l' = l.filterMap f := by
  intro l h
  induction l with
  | nil => exact ⟨[], rfl, by simp, rfl⟩
  | cons a l ih =>
    obtain ⟨b, hb⟩ := h a List.mem_cons_self
    obtain ⟨l', h1, h2, h3⟩ := ih fun a ha => h a (List.mem_cons_of_mem _ ha)
    refine ⟨b :: l', by simp [List.mapM_cons, hb, h1], ?_, by rw [List.filterMap_cons_some hb, h3]⟩
    intro c
    simp only [List.mem_cons, h2, exists_eq_or_imp, hb, Option.some.injEq]
    rw [eq_comm]

/-- What any query of the view of paths returns. -/
theorem query_files {cfg : Cfg} {k : FileCodec} (hk : k.Lawful) {es : OMap ViewEntry} {m : OMap Document}
    (hu : UpToDate (byPath cfg k) es m) (key : Option (QueryKey Bytes)) :
    ∃ l, (queryByName es key .ascending none).mapM (foundOf k) = some l ∧
      (∀ h f, (h, f) ∈ l ↔ ∃ f₀ b, IsFile k m h f₀ ∧ keyBytes (container f₀) f₀.name = some b ∧ Selects key b ∧
        f = canonical f₀) ∧
      l = (queryByName es key .ascending none).filterMap (foundOf k) := by
  have hrow : ∀ r ∈ queryByName es key .ascending none, ∃ f₀, IsFile k m r.source f₀ ∧
      keyBytes (container f₀) f₀.name = some r.key ∧ Selects key r.key ∧
      foundOf k r = some (r.source, canonical f₀) := by
    intro r hr
    obtain ⟨hs, id, d, hd, he⟩ := (query_of_upToDate hu key .ascending r).mp hr
    obtain ⟨f, h1, h2, h3⟩ := expect_byPath.mp he
    simp only [EntryMapping.mk.injEq] at h3
    refine ⟨f, ⟨id, d, hd, h3.1.symm, h1⟩, h2, hs, ?_⟩
    have := foundOf_eq hk h2 r.source
    rw [← h3.2] at this
    exact this
  obtain ⟨l, h1, h2, h3⟩ := mapM_of_some (f := foundOf k) (l := queryByName es key .ascending none)
    (fun r hr => let ⟨_, _, _, _, h⟩ := hrow r hr; ⟨_, h⟩)
  refine ⟨l, h1, fun h f => ?_, h3⟩
  rw [h2]
  constructor
  · rintro ⟨r, hr, he⟩
    obtain ⟨f₀, a, b, c, e⟩ := hrow r hr
    rw [e] at he
    simp only [Option.some.injEq, Prod.mk.injEq] at he
    obtain ⟨rfl, rfl⟩ := he
    exact ⟨f₀, _, a, b, c, rfl⟩
  · rintro ⟨f₀, b, ⟨id, d, hd, rfl, hf⟩, hb, hs, rfl⟩
    exact ⟨_, (query_of_upToDate hu key .ascending ⟨d.header, b, k.encValue (f₀.created, f₀.metadata)⟩).mpr
      ⟨hs, id, d, hd, expect_byPath.mpr ⟨f₀, hf, hb, rfl⟩⟩, foundOf_eq hk hb _⟩

/-- In an up-to-date view every stored file has a key. -/
theorem key_of_file {cfg : Cfg} {k : FileCodec} {es : OMap ViewEntry} {m : OMap Document}
    (hu : UpToDate (byPath cfg k) es m) {h : Header} {f : FileRec} (hf : IsFile k m h f) :
    ∃ b, keyBytes (container f) f.name = some b := by
  obtain ⟨id, d, hd, -, hf⟩ := hf
  have := (hu.2 id).1 d hd
  simp only [byPath, hf, Option.bind_some] at this
  cases hk : keyBytes (container f) f.name with
  | none => rw [hk] at this; cases this
  | some b => exact ⟨b, rfl⟩

/-- No file is returned twice by a range query. -/
theorem query_once {cfg : Cfg} {k : FileCodec} (hk : k.Lawful) {es : OMap ViewEntry} {m : OMap Document}
    (hu : UpToDate (byPath cfg k) es m) (r : Range Bytes) :
    (((queryByName es (some (.range r)) .ascending none).filterMap (foundOf k)).map fun x => x.1.id).Nodup := by
  have hq : ((queryByName es (some (.range r)) .ascending none).map fun x => x.source.id).Nodup := by
    have hs := scan_sorted_asc es r
    have hpair : (viewIterator es (some (.range r)) .ascending none).Pairwise fun a b => a.key ≠ b.key := by
      simp only [viewIterator]
      rw [List.pairwise_map]
      refine hs.imp_of_mem ?_
      rintro ⟨ka, a⟩ ⟨kb, b⟩ ha hb hlt e
      have e1 := (hu.1 _ _ (mem_scan.mp ha).1).1
      have e2 := (hu.1 _ _ (mem_scan.mp hb).1).1
      simp only at e e1 e2 hlt
      rw [← e1, ← e2, e] at hlt
      exact bytes_lt_irrefl _ hlt
    unfold queryByName
    rw [List.map_flatMap]
    unfold List.Nodup
    rw [List.pairwise_flatMap]
    refine ⟨?_, ?_⟩
    · intro e he
      obtain ⟨hg, -⟩ := (viewIterator_mem hu.1 _ _ e).mp he
      have := (hu.1 _ _ hg).2.2
      rw [List.map_map]
      exact this
    · refine hpair.imp_of_mem ?_
      intro a b ha hb hne x hx y hy hxy
      subst hxy
      rw [List.map_map, List.mem_map] at hx hy
      obtain ⟨mx, hmx, ex⟩ := hx
      obtain ⟨my, hmy, ey⟩ := hy
      have hq1 : (⟨mx.source, a.key, mx.value⟩ : Mapped) ∈ queryByName es (some (.range r)) .ascending none :=
        List.mem_flatMap.mpr ⟨a, ha, List.mem_map.mpr ⟨mx, hmx, rfl⟩⟩
      have hq2 : (⟨my.source, b.key, my.value⟩ : Mapped) ∈ queryByName es (some (.range r)) .ascending none :=
        List.mem_flatMap.mpr ⟨b, hb, List.mem_map.mpr ⟨my, hmy, rfl⟩⟩
      have key : ∀ (q : Mapped), q ∈ queryByName es (some (.range r)) .ascending none →
          expect (byPath cfg k) (m.get q.source.id) q.key = some ⟨q.source, q.value⟩ := by
        intro q hq
        obtain ⟨-, id, d, hd, he⟩ := (query_of_upToDate hu _ _ q).mp hq
        have h1 := (hu.2 id).2 q.key
        rw [hd, he] at h1
        obtain ⟨e, -, h1⟩ := Option.bind_eq_some_iff.mp h1
        have := List.find?_some h1
        simp only [decide_eq_true_eq] at this
        rw [this, hd, he]
      have k1 := key _ hq1
      have k2 := key _ hq2
      simp only [Function.comp_apply] at ex ey k1 k2
      rw [ey] at k2
      rw [ex] at k1
      cases hd : m.get x with
      | none => rw [hd] at k1; cases k1
      | some d =>
        rw [hd] at k1 k2
        obtain ⟨f, h1, h2, -⟩ := expect_byPath.mp k1
        obtain ⟨g, h3, h4, -⟩ := expect_byPath.mp k2
        rw [h1] at h3
        cases h3
        rw [h2] at h4
        exact hne (Option.some.inj h4)
  have hall : ∀ q ∈ queryByName es (some (.range r)) .ascending none, ∃ f, foundOf k q = some (q.source, f) := by
    intro q hq
    obtain ⟨-, id, d, hd, he⟩ := (query_of_upToDate hu _ _ q).mp hq
    obtain ⟨f, h1, h2, h3⟩ := expect_byPath.mp he
    simp only [EntryMapping.mk.injEq] at h3
    have := foundOf_eq hk h2 q.source
    rw [← h3.2] at this
    exact ⟨_, this⟩
  have : ∀ l : List Mapped, (∀ q ∈ l, ∃ f, foundOf k q = some (q.source, f)) →
      (l.filterMap (foundOf k)).map (fun x => x.1.id) = l.map fun q => q.source.id := by
    intro l
    induction l with
    | nil => intro _; rfl
    | cons q l ih =>
      intro h
      obtain ⟨f, hf⟩ := h q List.mem_cons_self
      rw [List.filterMap_cons_some hf, List.map_cons, List.map_cons, ih fun q hq => h q (List.mem_cons_of_mem _ hq)]
  rw [this _ hall]
  exact hq

/-! ## Listing a directory -/

/-- **C52**: exactly what `list` returns, for every path without a null character: every file whose containing
path is the listed one, and, wrongly, files whose containing path continues it with a null character.  No file
is returned twice. -/
theorem C52_list_exact (cfg : Cfg) (k : FileCodec) (hk : k.Lawful) (es : OMap ViewEntry) (m : OMap Document)
    (hu : UpToDate (byPath cfg k) es m) (p : Str) (hp : '\x00' ∉ p) :
    ∃ l, list k es p = some l ∧ (l.map fun x => x.1.id).Nodup ∧
      ∀ h f, (h, f) ∈ l ↔ ∃ f₀, IsFile k m h f₀ ∧ f = canonical f₀ ∧
        (container f₀ = forceSlash p ∨ (forceSlash p ++ ['\x00']) <+: container f₀) := by
  obtain ⟨l, h1, h2, h3⟩ := query_files hk hu
    (some (.range ⟨.included (exactBound p true), .excluded (exactBound p false)⟩))
  refine ⟨l, h1, by rw [h3]; exact query_once hk hu _, fun h f => ?_⟩
  rw [h2]
  constructor
  · rintro ⟨f₀, b, hf, hb, hs, rfl⟩
    exact ⟨f₀, hf, rfl, (list_selects hp hb).mp hs⟩
  · rintro ⟨f₀, hf, rfl, hc⟩
    obtain ⟨b, hb⟩ := key_of_file hu hf
    exact ⟨f₀, b, hf, hb, (list_selects hp hb).mpr hc, rfl⟩

/-- **C52**: when no null characters are involved, `list` returns exactly the files whose containing path is
`path` (with a `/` added at the end if it has none), each once. -/
theorem C52_list_partial (cfg : Cfg) (k : FileCodec) (hk : k.Lawful) (es : OMap ViewEntry) (m : OMap Document)
    (hu : UpToDate (byPath cfg k) es m) (p : Str) (hp : '\x00' ∉ p)
    (hn : ∀ h f, IsFile k m h f → '\x00' ∉ container f) :
    ∃ l, list k es p = some l ∧ (l.map fun x => x.1.id).Nodup ∧
      ∀ h f, (h, f) ∈ l ↔ ∃ f₀, IsFile k m h f₀ ∧ f = canonical f₀ ∧ container f₀ = forceSlash p := by
  obtain ⟨l, h1, h2, h3⟩ := C52_list_exact cfg k hk es m hu p hp
  refine ⟨l, h1, h2, fun h f => ?_⟩
  rw [h3]
  refine exists_congr fun f₀ => and_congr_right fun hf => and_congr_right fun _ => or_iff_left ?_
  intro hpre
  exact hn h f₀ hf (hpre.subset (by simp))

/-! ## Listing recursively -/

theorem nextSeq_spec {q : Str} {r : Str} (h : nextStrRev q.reverse = some r) (p : Str) :
    nextSeq q = r.reverse ∧ (¬ p < q ∧ p < r.reverse ↔ q <+: p) ∧ q < r.reverse := by
  have hs := nextRev_spec nextChar_law q.reverse
  rw [← nextStrRev_eq, h] at hs
  simp only [List.reverse_reverse, Option.some.injEq, forall_eq'] at hs
  refine ⟨by unfold nextSeq; rw [h], hs p, ?_⟩
  exact ((hs q).mpr (List.prefix_refl _)).2

theorem no_nul_next {q r : Str} (hq : '\x00' ∉ q) (h : nextStrRev q.reverse = some r) : '\x00' ∉ r.reverse := by
  have : ∀ (l : Str), '\x00' ∉ l → ∀ r, nextStrRev l = some r → '\x00' ∉ r := by
    intro l
    induction l with
    | nil => intro _ r h; cases h
    | cons c l ih =>
      intro hl r h
      simp only [List.mem_cons, not_or] at hl
      unfold nextStrRev at h
      cases hc : nextChar c with
      | some d =>
        rw [hc] at h
        simp only [Option.some.injEq] at h
        subst h
        simp only [List.mem_cons, not_or]
        refine ⟨?_, hl.2⟩
        intro e
        have := nextChar_some hc
        subst e
        have hz : (Char.toNat '\x00') = 0 := rfl
        omega
      | none =>
        rw [hc] at h
        exact ih hl.2 r h
  simpa using this q.reverse (by simpa using hq) r h

/-- **C52**: exactly what `list_recursive` returns, when neither the path nor the containing paths have null
characters and the bounds can be encoded: the files whose containing path starts with `path`, except
files directly in `path` whose encoded name sorts before the encoded length of `path`; and files of the
directory that is the next string after `path` whose encoded name sorts before its encoded length. -/
theorem C52_list_recursive_exact (cfg : Cfg) (k : FileCodec) (hk : k.Lawful) (es : OMap ViewEntry) (m : OMap Document)
    (hu : UpToDate (byPath cfg k) es m) (q r : Str) (hq : '\x00' ∉ q) (hnext : nextStrRev q.reverse = some r)
    (hl : (utf8 q).length ≤ 65535) (hl' : (utf8 r.reverse).length ≤ 65535)
    (hn : ∀ h f, IsFile k m h f → '\x00' ∉ container f) :
    ∃ l, listRecursive k es q = some l ∧ (l.map fun x => x.1.id).Nodup ∧
      ∀ h f, (h, f) ∈ l ↔ ∃ f₀, IsFile k m h f₀ ∧ f = canonical f₀ ∧
        ((q <+: container f₀ ∧ ¬ (container f₀ = q ∧ tail q f₀.name < lenBytes (utf8 q).length)) ∨
         (container f₀ = r.reverse ∧ tail r.reverse f₀.name < lenBytes (utf8 r.reverse).length)) := by
  have hr := no_nul_next hq hnext
  obtain ⟨hns, -, hlt⟩ := nextSeq_spec hnext q
  have ha : recBound q true = some (esc q ++ 0 :: lenBytes (utf8 q).length) := by
    rw [recBound_eq q true q rfl, esc_of_no_nul hq, if_pos hl]
  have hb : recBound q false = some (esc r.reverse ++ 0 :: lenBytes (utf8 r.reverse).length) := by
    rw [recBound_eq q false r.reverse hns.symm, esc_of_no_nul hr, if_pos hl']
  obtain ⟨l, h1, h2, h3⟩ := query_files hk hu
    (some (.range ⟨.included (esc q ++ 0 :: lenBytes (utf8 q).length),
      .excluded (esc r.reverse ++ 0 :: lenBytes (utf8 r.reverse).length)⟩))
  refine ⟨l, by unfold listRecursive; rw [ha, hb]; exact h1, by rw [h3]; exact query_once hk hu _, fun h f => ?_⟩
  rw [h2]
  have hsel : ∀ f₀ b, IsFile k m h f₀ → keyBytes (container f₀) f₀.name = some b →
      (Selects (some (.range ⟨.included (esc q ++ 0 :: lenBytes (utf8 q).length),
        .excluded (esc r.reverse ++ 0 :: lenBytes (utf8 r.reverse).length)⟩)) b ↔
        ((q <+: container f₀ ∧ ¬ (container f₀ = q ∧ tail q f₀.name < lenBytes (utf8 q).length)) ∨
         (container f₀ = r.reverse ∧ tail r.reverse f₀.name < lenBytes (utf8 r.reverse).length))) := by
    intro f₀ b hf hb
    obtain ⟨-, -, rfl⟩ := keyBytes_some hb
    have hc := hn h f₀ hf
    simp only [Selects, Within]
    show ¬ (esc (container f₀) ++ 0 :: tail (container f₀) f₀.name < _) ∧ _ ↔ _
    rw [key_lt_iff hc hq, key_lt_iff hc hr]
    rw [← (nextSeq_spec hnext (container f₀)).2.1]
    constructor
    · rintro ⟨h1, h2 | ⟨h2, h2'⟩⟩
      · refine .inl ⟨⟨fun h => h1 (.inl h), h2⟩, ?_⟩
        rintro ⟨e, h3⟩
        exact h1 (.inr ⟨e, by rw [e]; exact h3⟩)
      · exact .inr ⟨h2, by rw [← h2]; rw [← h2] at h2'; exact h2'⟩
    · rintro (⟨⟨h1, h2⟩, h3⟩ | ⟨h2, h2'⟩)
      · refine ⟨?_, .inl h2⟩
        rintro (h | ⟨e, h⟩)
        · exact h1 h
        · exact h3 ⟨e, by rw [e] at h; exact h⟩
      · refine ⟨?_, .inr ⟨h2, by rw [h2]; exact h2'⟩⟩
        rw [h2]
        rintro (h | ⟨e, -⟩)
        · have := (utf8_lt_iff _ _).mpr h
          exact bytes_lt_asymm this ((utf8_lt_iff _ _).mpr hlt)
        · have := (utf8_lt_iff _ _).mpr hlt
          rw [e] at this
          exact bytes_lt_irrefl _ this
  constructor
  · rintro ⟨f₀, b, hf, hb, hs, rfl⟩
    exact ⟨f₀, hf, rfl, (hsel f₀ b hf hb).mp hs⟩
  · rintro ⟨f₀, hf, rfl, hc⟩
    obtain ⟨b, hb⟩ := key_of_file hu hf
    exact ⟨f₀, b, hf, hb, (hsel f₀ b hf hb).mpr hc, rfl⟩

end Bonsai.Files
