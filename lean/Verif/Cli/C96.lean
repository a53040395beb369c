import Verif.Cli.Commands
/-!
# C96: the commands of the command line

`schema` prints exactly what there is, sorted, and finds exactly what is named; its arguments are unambiguous; but what it
prints cannot always be given back to it.  A command runs on the storage that its options name, after every step before
it succeeded; options that do not apply are ignored in silence.  `serve` ends only when it is asked to; that it cannot
listen is not reported, and while it waits for a certificate it cannot be asked.
-/
set_option linter.unusedSimpArgs false
set_option linter.unusedVariables false

namespace Bonsai.Cli

open Bonsai Bonsai.Names Bonsai.Store Bonsai.Schm

/-! ## Specification -/

/-- In ascending order of the names, part by part, byte by byte. -/
def Ascending {α : Type} (parts : α → List Bytes) (l : List α) : Prop := l.Pairwise fun x y => parts x ≤ parts y

/-- The text has neither `_` nor `.`. -/
def Simple (n : String) : Prop := (95 : UInt8) ∉ strBytes n ∧ (46 : UInt8) ∉ strBytes n

/-- A summary as a map: each name once, under its own name. -/
structure Sound {K : Type} (s : SchemaSummary K) : Prop where
  keys : (s.collections.map (·.1)).Nodup
  name : ∀ p ∈ s.collections, p.2.name = p.1
  views : ∀ p ∈ s.collections, (p.2.views.map (·.1)).Nodup ∧ ∀ v ∈ p.2.views, v.2.name = v.1

/-! ## Proofs -/

theorem sorted_map {α β : Type} (f : α → β) (parts : β → List Bytes) (l : List α) :
    ((l.mergeSort fun x y => notAfter (parts (f x)) (parts (f y))).map f).Perm (l.map f) ∧
      Ascending parts ((l.mergeSort fun x y => notAfter (parts (f x)) (parts (f y))).map f) := by
  refine ⟨(List.mergeSort_perm _ _).map f, ?_⟩
  have h := List.pairwise_mergeSort (le := fun x y => notAfter (parts (f x)) (parts (f y)))
    (by
      intro a b c h1 h2
      simp only [notAfter, decide_eq_true_eq] at *
      exact List.le_trans h1 h2)
    (by
      intro a b
      simp only [notAfter, Bool.or_eq_true, decide_eq_true_eq]
      exact List.le_total _ _) l
  simp only [Ascending, List.pairwise_map]
  refine h.imp ?_
  intro a b h
  simpa [notAfter] using h

theorem strBytes_inj {a b : String} (h : strBytes a = strBytes b) : a = b := by
  have ha := parseName_encodeName a
  have : encodeName a = encodeName b := by rw [encodeName_eq, encodeName_eq, h]
  rw [this, parseName_encodeName] at ha
  exact (Option.some.inj ha).symm

theorem partsQ_inj {a b : QName} (h : partsQ a = partsQ b) : a = b := by
  obtain ⟨a1, a2⟩ := a
  obtain ⟨b1, b2⟩ := b
  simp only [partsQ, List.cons.injEq, and_true] at h
  rw [strBytes_inj h.1, strBytes_inj h.2]

theorem partsV_inj {a b : VName} (h : partsV a = partsV b) : a = b := by
  obtain ⟨⟨a1, a2⟩, a3⟩ := a
  obtain ⟨⟨b1, b2⟩, b3⟩ := b
  simp only [partsV, partsQ, List.cons_append, List.nil_append, List.cons.injEq, and_true] at h
  rw [strBytes_inj h.1, strBytes_inj h.2.1, strBytes_inj h.2.2]

theorem ascending_unique {β : Type} {parts : β → List Bytes} (hi : ∀ a b, parts a = parts b → a = b) {l m : List β}
    (hl : Ascending parts l) (hm : Ascending parts m) (hp : l.Perm m) : l = m :=
  hp.eq_of_pairwise (fun a b _ _ h1 h2 => hi a b (List.le_antisymm h1 h2)) hl hm

theorem parseItem_collection (c : QName) : parseItem (encodeQ c) = some (.collection c) := by
  have h : parseV (encodeQ c) = none := by
    simp only [parseV, encodeQ, rsplitOnce_append _ _ (no_dot c.name), Option.bind_some]
    rw [C15_dot_count _ (by rw [List.count_eq_zero.2 (no_dot c.authority)]; decide)]
    rfl
  simp [parseItem, h, C15_qualified_round_trip]

theorem parseItem_view (v : VName) : parseItem (encodeV v) = some (.view v) := by
  simp [parseItem, C15_view_round_trip]

theorem unescape_length : ∀ (n : Nat) (s t : Bytes), s.length ≤ n → unescape s = some t →
    t.length ≤ s.length ∧ ((95 : UInt8) ∈ s → t.length < s.length)
  | 0, s, t, hn, h => by
    obtain rfl : s = [] := List.length_eq_zero_iff.1 (by omega)
    simp [unescape] at h
    subst h
    simp
  | n + 1, [], t, hn, h => by
    simp [unescape] at h
    subst h
    simp
  | n + 1, b :: r, t, hn, h => by
    rw [unescape.eq_def] at h
    simp only at h
    by_cases hb : b = 95
    · rw [if_pos hb] at h
      rcases r with _ | ⟨x, _ | ⟨y, r⟩⟩
      · cases h
      · cases h
      · simp only [Option.bind_eq_some_iff, Option.map_eq_some_iff] at h
        obtain ⟨hi, _, lo, _, u, hu, rfl⟩ := h
        have := (unescape_length n r u (by simp only [List.length_cons] at hn; omega) hu).1
        simp only [List.length_cons]
        omega
    · rw [if_neg hb] at h
      simp only [Option.map_eq_some_iff] at h
      obtain ⟨u, hu, rfl⟩ := h
      have := unescape_length n r u (by simp only [List.length_cons] at hn; omega) hu
      simp only [List.length_cons, List.mem_cons]
      refine ⟨by omega, ?_⟩
      rintro (e | hm)
      · exact absurd e.symm hb
      · have := this.2 hm
        omega

theorem unescape_simple : ∀ s : Bytes, (95 : UInt8) ∉ s → unescape s = some s
  | [], _ => rfl
  | b :: r, h => by
    simp only [List.mem_cons, not_or] at h
    rw [unescape_plain (fun e => h.1 e.symm), unescape_simple r h.2]
    rfl

theorem parseName_display (n : String) : parseName (displayName n) = some n ↔ (95 : UInt8) ∉ strBytes n := by
  constructor
  · intro h hm
    have h2 := parseName_encodeName n
    simp only [parseName, encodeName_eq, unescape_flatMap, Option.bind_some] at h2
    simp only [parseName, displayName, Option.bind_eq_some_iff] at h
    obtain ⟨t, ht, hf⟩ := h
    have hl := (unescape_length _ _ t (Nat.le_refl _) ht).2 hm
    have : t = strBytes n := by
      simp only [String.fromUTF8?] at hf
      split at hf
      · injection hf with hf
        rw [← hf]
        simp [strBytes, String.fromUTF8]
      · cases hf
    rw [this] at hl
    omega
  · intro h
    have h2 := parseName_encodeName n
    simp only [parseName, encodeName_eq, unescape_flatMap, Option.bind_some] at h2
    simp only [parseName, displayName, unescape_simple _ h, Option.bind_some, h2]

theorem parseItem_displayQ (c : QName) :
    parseItem (displayQ c) = some (.collection c) ↔ Simple c.authority ∧ Simple c.name := by
  constructor
  · intro h
    have hq : parseQ (displayQ c) = some c := by
      simp only [parseItem] at h
      split at h
      · cases h
      · simp only [Option.map_eq_some_iff] at h
        obtain ⟨q, hq, e⟩ := h
        cases e
        exact hq
    have hc : (displayQ c).count 46 = 1 := by
      refine Classical.byContradiction fun hn => ?_
      rw [C15_dot_count _ hn] at hq
      cases hq
    simp only [displayQ, displayName, List.count_append, List.count_cons_self] at hc
    have h1 : (46 : UInt8) ∉ strBytes c.authority := List.count_eq_zero.1 (by omega)
    have h2 : (46 : UInt8) ∉ strBytes c.name := List.count_eq_zero.1 (by omega)
    simp only [parseQ, displayQ] at hq
    rw [splitDots_cons (by simpa [displayName] using h1), splitDots_no_dot (by simpa [displayName] using h2)] at hq
    simp only [Option.bind_eq_some_iff, Option.map_eq_some_iff] at hq
    obtain ⟨a, ha, n, hn, e⟩ := hq
    subst e
    exact ⟨⟨(parseName_display _).1 ha, h1⟩, (parseName_display _).1 hn, h2⟩
  · rintro ⟨⟨u1, d1⟩, u2, d2⟩
    have hq : parseQ (displayQ c) = some c := by
      simp only [parseQ, displayQ]
      rw [splitDots_cons (by simpa [displayName] using d1), splitDots_no_dot (by simpa [displayName] using d2)]
      simp only [(parseName_display _).2 u1, (parseName_display _).2 u2, Option.bind_some, Option.map_some]
    have hv : parseV (displayQ c) = none := by
      simp only [parseV, displayQ]
      rw [rsplitOnce_append _ _ (by simpa [displayName] using d2)]
      simp only [Option.bind_some]
      rw [C15_dot_count _ (by rw [List.count_eq_zero.2 (by simpa [displayName] using d1)]; decide)]
      rfl
    simp [parseItem, hv, hq]

theorem parseItem_displayV (v : VName) (h1 : Simple v.collection.authority) (h2 : Simple v.collection.name)
    (h3 : Simple v.name) : parseItem (displayV v) = some (.view v) := by
  have hq : parseQ (displayQ v.collection) = some v.collection := by
    simp only [parseQ, displayQ]
    rw [splitDots_cons (by simpa [displayName] using h1.2), splitDots_no_dot (by simpa [displayName] using h2.2)]
    simp only [(parseName_display _).2 h1.1, (parseName_display _).2 h2.1, Option.bind_some, Option.map_some]
  have hv : parseV (displayV v) = some v := by
    simp only [parseV, displayV]
    rw [rsplitOnce_append _ _ (by simpa [displayName] using h3.2)]
    simp only [Option.bind_some, hq, (parseName_display _).2 h3.1, Option.map_some]
  simp [parseItem, hv]

theorem find_mem {α β : Type} [DecidableEq α] {m : List (α × β)} (hk : (m.map (·.1)).Nodup) {a : α} {b : β}
    (h : (a, b) ∈ m) : find m a = some b := by
  induction m with
  | nil => cases h
  | cons p m ih =>
    simp only [List.map_cons, List.nodup_cons] at hk
    simp only [find, List.find?_cons]
    rcases List.mem_cons.1 h with rfl | h
    · simp
    · have : p.1 ≠ a := fun e => hk.1 (List.mem_map.2 ⟨_, h, e.symm⟩)
      simp only [this, decide_false]
      exact ih hk.2 h

theorem mem_of_find {α β : Type} [DecidableEq α] {m : List (α × β)} {a : α} {b : β} (h : find m a = some b) :
    (a, b) ∈ m := by
  simp only [find, Option.map_eq_some_iff] at h
  obtain ⟨⟨x, y⟩, h1, h2⟩ := h
  have e := List.find?_some h1
  have m := List.mem_of_find?_eq_some h1
  simp only [decide_eq_true_eq] at e h2
  subst e h2
  exact m

theorem put_keys {α β : Type} [DecidableEq α] {m : List (α × β)} (hk : (m.map (·.1)).Nodup) (a : α) (b : β) :
    ((put m a b).map (·.1)).Nodup := by
  simp only [put, List.map_append, List.map_cons, List.map_nil, List.nodup_append, List.nodup_cons, List.not_mem_nil,
    not_false_eq_true, List.nodup_nil, and_true, true_and, List.mem_singleton]
  refine ⟨hk.sublist (List.Sublist.map _ List.filter_sublist), ?_⟩
  rintro x hx y rfl
  simp only [List.mem_map, List.mem_filter] at hx
  obtain ⟨p, ⟨_, hp⟩, rfl⟩ := hx
  simpa using hp

theorem put_mem {α β : Type} [DecidableEq α] {m : List (α × β)} {a : α} {b : β} {p : α × β} (h : p ∈ put m a b) :
    p ∈ m ∨ p = (a, b) := by
  simp only [put, List.mem_append, List.mem_filter, List.mem_singleton] at h
  exact h.imp (·.1) id

theorem addViews_sound {K : Type} {kd : View → Option K} : ∀ {vs : List View} {m r : List (VName × ViewSummary K)},
    addViews kd vs m = some r → (m.map (·.1)).Nodup → (∀ v ∈ m, v.2.name = v.1) →
    (r.map (·.1)).Nodup ∧ ∀ v ∈ r, v.2.name = v.1
  | [], m, r, h, h1, h2 => by
    simp only [addViews, Option.some.injEq] at h
    subst h
    exact ⟨h1, h2⟩
  | v :: vs, m, r, h, h1, h2 => by
    simp only [addViews, Option.bind_eq_some_iff] at h
    obtain ⟨k, _, h⟩ := h
    refine addViews_sound h (put_keys h1 _ _) ?_
    intro x hx
    rcases put_mem hx with hx | rfl
    · exact h2 x hx
    · rfl

theorem addCollections_sound {K : Type} {s : Schematic} {kd : View → Option K} (n : QName) :
    ∀ {cs : List QName} {m r : List (QName × CollSummary K)}, addCollections s kd cs m = some r →
      Sound ⟨n, m⟩ → Sound ⟨n, r⟩
  | [], m, r, h, i => by
    simp only [addCollections, Option.some.injEq] at h
    subst h
    exact i
  | c :: cs, m, r, h, i => by
    simp only [addCollections, Option.bind_eq_some_iff] at h
    obtain ⟨e, he, vs, hvs, h⟩ := h
    have hev : e.name = c ∧ (e.views.map (·.1)).Nodup ∧ ∀ v ∈ e.views, v.2.name = v.1 := by
      simp only [entryFor] at he
      split at he
      · rename_i e' hf
        cases he
        exact ⟨i.name _ (mem_of_find hf), i.views _ (mem_of_find hf)⟩
      · simp only [Option.map_eq_some_iff] at he
        obtain ⟨d, _, rfl⟩ := he
        simp
    have hv := addViews_sound hvs hev.2.1 hev.2.2
    refine addCollections_sound n h ⟨put_keys i.keys _ _, ?_, ?_⟩
    · intro p hp
      rcases put_mem hp with hp | rfl
      · exact i.name p hp
      · exact hev.1
    · intro p hp
      rcases put_mem hp with hp | rfl
      · exact i.views p hp
      · exact hv

/-! ## Theorems: `schema` -/

/-- The summaries that a storage gives are sound. -/
theorem C96_summaries {K : Type} {kd : View → Option K} {n : QName} {s : Schematic} {x : SchemaSummary K}
    (h : summarize kd n s = some x) : Sound x ∧ x.name = n := by
  simp only [summarize, Option.map_eq_some_iff] at h
  obtain ⟨m, h, rfl⟩ := h
  exact ⟨addCollections_sound n h ⟨by simp, by simp, by simp⟩, rfl⟩

/-- Without arguments: the name of each schema once, in ascending order. -/
theorem C96_schemas {K : Type} (schemas : List (SchemaSummary K)) :
    ∃ l : List QName, l.Perm (schemas.map (·.name)) ∧ Ascending partsQ l ∧
      schemaCmd schemas [] = .lines (l.map fun q => .name (displayQ q)) := by
  obtain ⟨h1, h2⟩ := sorted_map (fun s : SchemaSummary K => s.name) partsQ schemas
  exact ⟨_, h1, h2, by simp [schemaCmd, handleSchema, List.map_map]⟩

theorem find_schema {K : Type} {schemas : List (SchemaSummary K)} (hu : (schemas.map (·.name)).Nodup)
    {s : SchemaSummary K} (hs : s ∈ schemas) : schemas.find? (fun x => x.name == s.name) = some s := by
  induction schemas with
  | nil => cases hs
  | cons x l ih =>
    simp only [List.map_cons, List.nodup_cons] at hu
    rw [List.find?_cons]
    rcases List.mem_cons.1 hs with rfl | hs
    · simp
    · have : x.name ≠ s.name := fun e => hu.1 (List.mem_map.2 ⟨_, hs, e.symm⟩)
      simp only [beq_eq_false_iff_ne.2 this]
      exact ih hu.2 hs

/-- With the encoded name of a schema: the name of each of its collections once, in ascending order. -/
theorem C96_collections {K : Type} {schemas : List (SchemaSummary K)} (hu : (schemas.map (·.name)).Nodup)
    {s : SchemaSummary K} (hs : s ∈ schemas) (hw : Sound s) :
    ∃ l : List QName, l.Perm (s.collections.map (·.1)) ∧ Ascending partsQ l ∧
      schemaCmd schemas [encodeQ s.name] = .lines (l.map fun q => .name (displayQ q)) := by
  obtain ⟨h1, h2⟩ := sorted_map (fun c : CollSummary K => c.name) partsQ (s.collections.map (·.2))
  refine ⟨_, ?_, h2, ?_⟩
  · refine h1.trans ?_
    rw [List.map_map]
    exact .of_eq (List.map_congr_left fun p hp => hw.name p hp)
  · simp only [schemaCmd, C15_qualified_round_trip, handleSchema, find_schema hu hs, List.map_map]
    rfl

/-- With the encoded names of a schema and a collection of it: the name of each of its views once, in ascending order. -/
theorem C96_views {K : Type} {schemas : List (SchemaSummary K)} (hu : (schemas.map (·.name)).Nodup)
    {s : SchemaSummary K} (hs : s ∈ schemas) (hw : Sound s) {q : QName} {c : CollSummary K}
    (hc : (q, c) ∈ s.collections) :
    ∃ l : List VName, l.Perm (c.views.map (·.1)) ∧ Ascending partsV l ∧
      schemaCmd schemas [encodeQ s.name, encodeQ q] = .lines (l.map fun v => .name (displayV v)) := by
  obtain ⟨h1, h2⟩ := sorted_map (fun v : ViewSummary K => v.name) partsV (c.views.map (·.2))
  refine ⟨_, ?_, h2, ?_⟩
  · refine h1.trans ?_
    rw [List.map_map]
    exact .of_eq (List.map_congr_left fun p hp => (hw.views _ hc).2 p hp)
  · simp only [schemaCmd, C15_qualified_round_trip, parseItem_collection, handleSchema, find_schema hu hs,
      SchemaSummary.collection, find_mem hw.keys hc, List.map_map]
    rfl

/-- With the encoded names of a schema and a view of it: the version and the policy of that view. -/
theorem C96_view {K : Type} {schemas : List (SchemaSummary K)} (hu : (schemas.map (·.name)).Nodup)
    {s : SchemaSummary K} (hs : s ∈ schemas) (hw : Sound s) {v : VName} {c : CollSummary K} {x : ViewSummary K}
    (hc : (v.collection, c) ∈ s.collections) (hv : (v, x) ∈ c.views) :
    schemaCmd schemas [encodeQ s.name, encodeV v] = .lines [.version x.version, .policy x.policy] := by
  simp only [schemaCmd, C15_qualified_round_trip, parseItem_view, handleSchema, find_schema hu hs,
    SchemaSummary.collection, find_mem hw.keys hc, CollSummary.view, find_mem (hw.views _ hc).1 hv]

/-- What is not there is reported as such. -/
theorem C96_missing {K : Type} {schemas : List (SchemaSummary K)} (n : QName) (q : QName) (v : VName) :
    ((∀ s ∈ schemas, s.name ≠ n) → schemaCmd schemas [encodeQ n] = .schemaNotRegistered ∧
        schemaCmd schemas [encodeQ n, encodeQ q] = .schemaNotRegistered ∧
        schemaCmd schemas [encodeQ n, encodeV v] = .schemaNotRegistered) ∧
      ∀ s ∈ schemas, (schemas.map (·.name)).Nodup → s.name = n →
        ((∀ c, (q, c) ∉ s.collections) → schemaCmd schemas [encodeQ n, encodeQ q] = .collectionNotFound) ∧
        ((∀ c, (v.collection, c) ∉ s.collections) → schemaCmd schemas [encodeQ n, encodeV v] = .collectionNotFound) ∧
        (Sound s → ∀ c, (v.collection, c) ∈ s.collections → (∀ x, (v, x) ∉ c.views) →
          schemaCmd schemas [encodeQ n, encodeV v] = .viewNotFound) := by
  have hnone : ∀ {α β : Type} [DecidableEq α] {m : List (α × β)} {a : α}, (∀ b, (a, b) ∉ m) → find m a = none := by
    intro α β _ m a h
    rcases hf : find m a with _ | b
    · rfl
    · exact absurd (mem_of_find hf) (h b)
  constructor
  · intro h
    have : schemas.find? (fun x => x.name == n) = none := by
      rw [List.find?_eq_none]
      intro x hx
      simpa using h x hx
    simp [schemaCmd, C15_qualified_round_trip, parseItem_collection, parseItem_view, handleSchema, this]
  · rintro s hs hu rfl
    refine ⟨fun h => ?_, fun h => ?_, fun hw c hc h => ?_⟩
    · simp only [schemaCmd, C15_qualified_round_trip, parseItem_collection, handleSchema, find_schema hu hs,
        SchemaSummary.collection, hnone h]
    · simp only [schemaCmd, C15_qualified_round_trip, parseItem_view, handleSchema, find_schema hu hs,
        SchemaSummary.collection, hnone h]
    · simp only [schemaCmd, C15_qualified_round_trip, parseItem_view, handleSchema, find_schema hu hs,
        SchemaSummary.collection, find_mem hw.keys hc, CollSummary.view, hnone h]

/-- What is printed does not depend on the order in which the storage gives it, or in which its maps are iterated. -/
theorem C96_order {K : Type} {a b : List (SchemaSummary K)} (h : a.Perm b) : schemaCmd a [] = schemaCmd b [] := by
  obtain ⟨l, h1, h2, h3⟩ := C96_schemas a
  obtain ⟨m, h4, h5, h6⟩ := C96_schemas b
  rw [h3, h6, ascending_unique (fun _ _ => partsQ_inj) h2 h5 (h1.trans ((h.map _).trans h4.symm))]

/-- An encoded name is taken as what it names, whatever it contains. -/
theorem C96_arguments : (∀ c, parseItem (encodeQ c) = some (.collection c)) ∧
    ∀ v, parseItem (encodeV v) = some (.view v) := ⟨parseItem_collection, parseItem_view⟩

/-- What is printed can be given back, if the names have neither `_` nor `.`; for collections, only then.  (Missing: the
other names, which the command prints without encoding them: `C96_violated_printed`.) -/
theorem C96_printed_partial :
    (∀ c : QName, parseItem (displayQ c) = some (.collection c) ↔ Simple c.authority ∧ Simple c.name) ∧
      ∀ v : VName, Simple v.collection.authority → Simple v.collection.name → Simple v.name →
        parseItem (displayV v) = some (.view v) := ⟨parseItem_displayQ, parseItem_displayV⟩

/-- `schema` prints the name of a collection that it then refuses; one that it takes as another collection; and one that
it takes as a view. -/
theorem C96_violated_printed : parseItem (displayQ ⟨"app", "blog_posts"⟩) = none ∧
    parseItem (displayQ ⟨"app", "a_2db"⟩) = some (.collection ⟨"app", "a-b"⟩) ∧
    parseItem (displayQ ⟨"app", "a.b"⟩) = some (.view ⟨⟨"app", "a"⟩, "b"⟩) := by decide +kernel

/-! ## Theorems: running a command -/

theorem perform_before (ok : Act2 → Bool) : ∀ (l p : List Act2) (a : Act2) (q : List Act2),
    (perform ok l).1 = p ++ a :: q → q ≠ [] → ok a = true
  | [], p, a, q, h, _ => by simp [perform] at h
  | x :: l, p, a, q, h, hq => by
    by_cases hx : ok x = true
    · simp only [perform, if_pos hx] at h
      rcases p with _ | ⟨y, p⟩
      · simp only [List.nil_append, List.cons.injEq] at h
        rw [← h.1]
        exact hx
      · simp only [List.cons_append, List.cons.injEq] at h
        exact perform_before ok l p a q h.2 hq
    · simp only [perform, if_neg hx] at h
      rcases p with _ | ⟨y, p⟩
      · simp only [List.nil_append, List.cons.injEq] at h
        exact absurd h.2.symm hq
      · simp at h

theorem perform_ok (ok : Act2 → Bool) : ∀ l : List Act2, ((perform ok l).2 = true ↔ ∀ a ∈ l, ok a = true) ∧
    ((perform ok l).2 = true → (perform ok l).1 = l) ∧ ∀ a ∈ (perform ok l).1, a ∈ l
  | [] => by simp [perform]
  | x :: l => by
    obtain ⟨h1, h2, h3⟩ := perform_ok ok l
    by_cases hx : ok x = true
    · rw [perform, if_pos hx]
      simp only [List.forall_mem_cons, hx, true_and]
      exact ⟨h1, fun h => by rw [h2 h], List.mem_cons_self, fun a ha => List.mem_cons_of_mem _ (h3 a ha)⟩
    · simp [perform, if_neg hx, hx]

/-- A step is taken only when each step before it succeeded. -/
theorem C96_steps (ok : Act2 → Bool) (w : Which) (o : Options) (p : List Act2) (a : Act2) (q : List Act2)
    (h : (execArgs ok w o).1 = p ++ a :: q) (hq : q ≠ []) : ok a = true := perform_before ok _ p a q h hq

/-- An external command that is run: it is run remotely exactly if there is a url, through a connection that was made with
the certificate that was given, or else on the storage that was opened; and as everybody who was asked for. -/
theorem C96_external (ok : Act2 → Bool) (w : Which) (o : Options) (r : Bool)
    (h : Act2.runExternal r ∈ (execArgs ok w o).1) : w = .external ∧ r = o.url ∧
      (o.url = true → ok (.connect o.certificate) = true) ∧ (o.url = false → ok .openServer = true) ∧
      (o.certificate = true → ok .readCertificate = true) ∧
      (o.username = true → ok .readPassword = true ∧ ok .authPassword = true) ∧
      (o.token = true → ok .readToken = true ∧ ok .authToken = true) := by
  obtain ⟨u, c, n, t⟩ := o
  cases w <;> cases u <;> cases c <;> cases n <;> cases t <;>
    simp only [execArgs, commandActs, perform, List.append_nil, List.nil_append, List.cons_append, if_true,
      Bool.false_eq_true, if_false, reduceIte] at h ⊢ <;>
    (repeat' split at h) <;> simp_all

/-- A command for the server is run on the storage, and with a url not at all: nothing is even opened. -/
theorem C96_server (ok : Act2 → Bool) (w : Which) (o : Options) (h : Act2.runServer ∈ (execArgs ok w o).1) :
    w = .server ∧ o.url = false ∧ ok .openServer = true ∧
      ((execArgs ok .server { o with url := true }).2 = false ∧
        Act2.openServer ∉ (execArgs ok .server { o with url := true }).1) := by
  obtain ⟨u, c, n, t⟩ := o
  cases w <;> cases u <;> cases c <;> cases n <;> cases t <;>
    simp only [execArgs, commandActs, perform, List.append_nil, List.nil_append, List.cons_append, if_true,
      Bool.false_eq_true, if_false, reduceIte] at h ⊢ <;>
    (repeat' split at h) <;> simp_all

/-- Success means that the command ran, and that everything succeeded; and what succeeds is reported as such. -/
theorem C96_success (ok : Act2 → Bool) (w : Which) (o : Options) :
    (execArgs ok w o).2 = true ↔ (∀ a ∈ (execArgs ok w o).1, ok a = true) ∧
      (Act2.runServer ∈ (execArgs ok w o).1 ∨ Act2.runExternal o.url ∈ (execArgs ok w o).1) := by
  obtain ⟨u, c, n, t⟩ := o
  cases w <;> cases u <;> cases c <;> cases n <;> cases t <;>
    simp only [execArgs, commandActs, perform, List.append_nil, List.nil_append, List.cons_append, if_true,
      Bool.false_eq_true, if_false, reduceIte] <;>
    (repeat' split) <;> simp_all

/-- Options that do not apply are ignored: a command for the server runs without the user or the token that were given,
… -/
theorem C96_violated_credentials (ok : Act2 → Bool) (o : Options) :
    execArgs ok .server o = execArgs ok .server { o with username := false, token := false } := rfl

/-- … and a certificate that is to be pinned is read, but not used, when there is no url. -/
theorem C96_violated_certificate (ok : Act2 → Bool) (w : Which) (o : Options) (h : o.url = false) (b : Bool) :
    Act2.connect b ∉ (execArgs ok w o).1 := by
  obtain ⟨u, c, n, t⟩ := o
  cases h
  cases w <;> cases c <;> cases n <;> cases t <;>
    simp only [execArgs, commandActs, perform, List.append_nil, List.nil_append, List.cons_append, if_true,
      Bool.false_eq_true, if_false, reduceIte] <;>
    (repeat' split) <;> simp_all

/-! ## Theorems: `serve` -/

structure SInv (s : Serve) : Prop where
  wait : s.phase = .certificate → s.quic = .off
  cert : s.quic = .listening → s.cert = true
  spawned : s.phase = .running ∨ s.phase = .returned → s.quic ≠ .off
  asked : s.phase = .returned → s.asked = true
  started : s.http ≠ .off ∧ s.https ≠ .off

theorem sinv_steps {c : Bool} {s : Serve} (h : Serve.Steps (.init c) s) : SInv s := by
  induction h with
  | refl => cases c <;> constructor <;> simp [Serve.init]
  | step h1 h2 ih =>
    obtain ⟨i1, i2, i3, i4, i5⟩ := ih
    cases h2 <;> constructor <;> simp only [Serve.alive] at * <;> grind

/-- `serve` returns only when it was asked to, by a signal or a call; and clients of the BonsaiDb protocol are accepted only
when there is a certificate. -/
theorem C96_serve {c : Bool} {s : Serve} (h : Serve.Steps (.init c) s) :
    (s.phase = .returned → s.asked = true) ∧ (s.quic = .listening → s.cert = true) ∧
      (s.phase = .running → s.quic ≠ .off) :=
  ⟨(sinv_steps h).asked, (sinv_steps h).cert, fun e => (sinv_steps h).spawned (.inl e)⟩

/-- Once there is a certificate and somebody asks, it can end. -/
theorem C96_serve_ends {c : Bool} {s : Serve} (h : Serve.Steps (.init c) s) (ha : s.alive) (hc : s.cert = true)
    (hq : s.asked = true) : ∃ t, Serve.Steps s t ∧ t.phase = .returned := by
  rcases ha with hp | hp
  · have s1 := Serve.Steps.step (.refl (s := s)) (.go hp hc)
    have s2 := Serve.Steps.step s1 (.ends rfl hq)
    exact ⟨_, s2, rfl⟩
  · exact ⟨_, .step .refl (.ends hp hq), rfl⟩

/-- No address can be bound, and `serve` does not end by itself: in every continuation without a signal or a call it still
runs, and nothing listens. -/
theorem C96_violated_bind : ∃ s, Serve.Steps (.init true) s ∧ s.phase = .running ∧
    (s.http = .failed ∧ s.https = .failed ∧ s.quic = .failed) ∧
    ∀ t, Serve.Steps s t → t.asked = false →
      t.phase = .running ∧ t.http = .failed ∧ t.https = .failed ∧ t.quic = .failed := by
  have s1 := Serve.Steps.step (.refl (s := .init true)) (.http false (.inr rfl) rfl)
  have s2 := Serve.Steps.step s1 (.https false (.inr rfl) rfl)
  have s3 := Serve.Steps.step s2 (.quic false (.inr rfl) rfl)
  refine ⟨_, s3, rfl, ⟨rfl, rfl, rfl⟩, ?_⟩
  intro t h
  induction h with
  | refl => exact fun _ => ⟨rfl, rfl, rfl, rfl⟩
  | step h1 h2 ih =>
    intro hq
    cases h2 <;> simp_all

/-- While it waits for a certificate, a shutdown that is asked for has no effect, for as long as there is none; and a signal
kills the process. -/
theorem C96_violated_waiting : (∃ s, Serve.Steps (.init false) s ∧ s.asked = true ∧ s.https = .failed ∧
      ∀ t, Serve.Steps s t → t.cert = false → t.phase ≠ .returned) ∧
    ∀ s t, s.phase = .certificate → Serve.Step s t → t.asked = s.asked → t.phase ≠ .certificate → t.phase ≠ .running →
      t.phase = .killed := by
  constructor
  · have s1 := Serve.Steps.step (.refl (s := .init false)) (.https false (.inl rfl) rfl)
    have s2 := Serve.Steps.step s1 (.ask (.inl rfl))
    refine ⟨_, s2, rfl, rfl, ?_⟩
    intro t h hc
    have : t.phase = .certificate ∨ t.phase = .killed := by
      induction h with
      | refl => exact .inl rfl
      | step h1 h2 ih => cases h2 <;> simp_all
    rcases this with e | e <;> rw [e] <;> simp
  · intro s t hs h _ h1 h2
    cases h <;> simp_all

/-! ## Examples -/

/-- A storage with one schema, with two collections in no order, one of which has a view. -/
def exShown : List (SchemaSummary Unit) :=
  [⟨⟨"app", "main"⟩, [(⟨"app", "users"⟩, ⟨⟨"app", "users"⟩, 0,
      [(⟨⟨"app", "users"⟩, "by-name"⟩, ⟨⟨⟨"app", "users"⟩, "by-name"⟩, (), .unique, 2⟩)]⟩),
    (⟨"app", "posts"⟩, ⟨⟨"app", "posts"⟩, 0, []⟩)]⟩]

theorem exShown_sound : (exShown.map (·.name)).Nodup ∧ ∀ s ∈ exShown, Sound s := by
  refine ⟨by decide +kernel, fun s hs => ?_⟩
  obtain rfl := List.mem_singleton.1 hs
  constructor <;> simp

example : schemaCmd exShown [encodeQ ⟨"app", "main"⟩] =
    .lines [.name (displayQ ⟨"app", "posts"⟩), .name (displayQ ⟨"app", "users"⟩)] := by
  obtain ⟨l, h1, h2, h3⟩ := C96_collections exShown_sound.1 (s := exShown.head (by decide)) (List.mem_singleton.2 rfl)
    (exShown_sound.2 _ (List.mem_singleton.2 rfl))
  have : l = [⟨"app", "posts"⟩, ⟨"app", "users"⟩] := by
    refine ascending_unique (fun _ _ => partsQ_inj) h2 ?_ (h1.trans (.swap _ _ _))
    simp only [Ascending]
    decide +kernel
  subst this
  exact h3
example : schemaCmd exShown [strBytes "app.main", strBytes "app.users.by-name"] = .lines [.version 2, .policy .unique] := by
  decide +kernel
example : Simple "users" ∧ ¬ Simple "blog_posts" := by
  constructor <;> simp only [Simple] <;> decide +kernel
example : Act2.runExternal true ∈ (execArgs (fun _ => true) .external ⟨true, true, true, false⟩).1 := by decide
example : (execArgs (fun a => a != .authPassword) .external ⟨true, false, true, false⟩) =
    ([.connect false, .readPassword, .authPassword], false) := by decide

end Bonsai.Cli
