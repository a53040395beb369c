import Verif.Store.OpenTrees
/-!
# C95: the trees of a transaction

A transaction finds every tree that it uses open, as what it uses it, and never panics; it holds exactly the trees of its
collections and their views, each once, through the vault that the readers of the collection use; what it stores about a
collection with an encryption key is encrypted with that key.  Two parts are violated.
-/
set_option linter.unusedSimpArgs false
set_option linter.unusedVariables false

namespace Bonsai.Open

open Bonsai.Names
open Bonsai.Vault (KeyId TreeVault writerVault readerVault newIfNeeded)

/-! ## Specification -/

/-- The collection a tree belongs to. -/
def collOf : Tree → QName
  | .documents c => c
  | .viewEntries v => v.collection
  | .viewDocMap v => v.collection
  | .viewInvalidated v => v.collection
  | .viewVersions c => c

/-- Documents keep their versions, views do not. -/
def kindOf : Tree → Kind
  | .documents _ => .versioned
  | _ => .unversioned

/-- The trees that changing documents of the collections needs. -/
inductive Needed (s : Schema) (cs : List QName) : Tree → Prop where
  | documents {c : QName} : c ∈ cs → Needed s cs (.documents c)
  | map {c : QName} {v : View} : c ∈ cs → v ∈ s.viewsIn c → v.eager = true → Needed s cs (.viewDocMap v.name)
  | entries {c : QName} {v : View} : c ∈ cs → v ∈ s.viewsIn c → v.eager = true → Needed s cs (.viewEntries v.name)
  | invalidated {c : QName} {v : View} : c ∈ cs → v ∈ s.viewsIn c → v.eager = false →
      Needed s cs (.viewInvalidated v.name)

/-- The Rust type of a view fixes its collection (`View::Collection`). -/
def TypeFixesCollection (vs : List View) : Prop :=
  ∀ v ∈ vs, ∀ w ∈ vs, v.ty = w.ty → v.name.collection = w.name.collection

/-- Views of one Rust type that are registered (under different names) have one update policy. -/
def TypeFixesPolicy (vs : List View) : Prop := ∀ v ∈ vs, ∀ w ∈ vs, v.ty = w.ty → v.eager = w.eager

/-- What a transaction should end with. -/
def expected (s : Schema) (ops : List (QName × Outcome)) : End :=
  if ∃ p ∈ ops, p.1 ∉ s.collections then .notFound
  else if ∃ p ∈ ops, p.2 = .error ∨ p.2 = .refused then .error
  else .done

/-! ## Proofs -/

theorem built_views {cs : List QName} {key : QName → Option KeyId} {vs : List View} {s : Schema}
    (h : Built cs key vs s) :
    s.collections = cs ∧ s.key = key ∧ (∀ t v, s.views t = some v → v ∈ vs ∧ v.ty = t) ∧
      (∀ v ∈ vs, ∃ w, s.views v.ty = some w) ∧
      (∀ c t, t ∈ s.byCollection c ↔ ∃ v ∈ vs, v.ty = t ∧ v.name.collection = c) ∧
      (∀ c t, t ∈ s.eagerBy c ↔ ∃ v ∈ vs, v.ty = t ∧ v.name.collection = c ∧ v.eager = true) := by
  induction h with
  | nil => simp [Schema.empty]
  | cons h1 h2 ih =>
    rename_i vs s s' v
    obtain ⟨i1, i2, i3, i4, i5, i6⟩ := ih
    simp only [Schema.define] at h2
    split at h2
    · cases h2
    · injection h2 with h2
      subst h2
      refine ⟨i1, i2, ?_, ?_, ?_, ?_⟩
      · intro t w hw; simp only at hw; grind
      · intro w hw
        by_cases e : w.ty = v.ty
        · exact ⟨v, by simp [e]⟩
        · simp only [if_neg e]
          refine i4 w ?_
          rcases List.mem_append.1 hw with hw | hw
          · exact hw
          · rw [List.mem_singleton] at hw; subst hw; exact absurd rfl e
      · intro c t; simp only; grind
      · intro c t; simp only; grind

/-- The vault of a collection's trees. -/
def vaultOf (s : Schema) (dk : Option KeyId) (st : Option TreeVault) (c : QName) : Option TreeVault :=
  writerVault (s.key c) dk st

/-- `o` has the trees `P`, once. -/
structure Holds (s : Schema) (dk : Option KeyId) (st : Option TreeVault) (P : Tree → Prop) (o : OpenTrees) : Prop where
  index : ∀ n i, o.index n = some i ↔ ∃ x, o.trees[i]? = some x ∧ x.name = n
  trees : ∀ x, x ∈ o.trees ↔ ∃ t, P t ∧ x = ⟨treeName t, kindOf t, vaultOf s dk st (collOf t)⟩

theorem holds_congr {s : Schema} {dk : Option KeyId} {st : Option TreeVault} {P Q : Tree → Prop} {o : OpenTrees}
    (h : Holds s dk st P o) (e : ∀ t, P t ↔ Q t) : Holds s dk st Q o := by
  have : P = Q := funext fun t => propext (e t)
  exact this ▸ h

theorem holds_empty (s : Schema) (dk : Option KeyId) (st : Option TreeVault) :
    Holds s dk st (fun _ => False) .empty := by
  constructor <;> simp [OpenTrees.empty]

theorem holds_index {s : Schema} {dk : Option KeyId} {st : Option TreeVault} {P : Tree → Prop} {o : OpenTrees}
    (h : Holds s dk st P o) (t : Tree) : (o.index (treeName t)).isSome ↔ P t := by
  constructor
  · intro hi
    obtain ⟨i, hi⟩ := Option.isSome_iff_exists.1 hi
    obtain ⟨x, hx, hn⟩ := (h.index _ _).1 hi
    obtain ⟨t', ht', e⟩ := (h.trees x).1 (List.mem_of_getElem? hx)
    rw [e] at hn
    rw [← C15_tree_names_distinct _ _ hn]
    exact ht'
  · intro hp
    have hm := (h.trees _).2 ⟨t, hp, rfl⟩
    obtain ⟨i, hi⟩ := List.getElem?_of_mem hm
    rw [(h.index (treeName t) i).2 ⟨_, hi, rfl⟩]
    rfl

theorem holds_open {s : Schema} {dk : Option KeyId} {st : Option TreeVault} {P : Tree → Prop} {o : OpenTrees}
    (h : Holds s dk st P o) (t : Tree) :
    Holds s dk st (fun u => P u ∨ u = t) (o.openTree (treeName t) (kindOf t) (vaultOf s dk st (collOf t))) := by
  unfold OpenTrees.openTree
  split
  · rename_i hi
    refine holds_congr h fun u => ⟨.inl, fun hu => ?_⟩
    rcases hu with hu | rfl
    · exact hu
    · exact (holds_index h _).1 hi
  · rename_i hi
    constructor
    · intro n i
      simp only
      by_cases hn : n = treeName t
      · subst hn
        rw [if_pos rfl]
        constructor
        · intro e
          injection e with e
          subst e
          exact ⟨⟨treeName t, kindOf t, vaultOf s dk st (collOf t)⟩, by simp, rfl⟩
        · rintro ⟨x, hx, hxn⟩
          rcases Nat.lt_or_ge i o.trees.length with hl | hl
          · rw [List.getElem?_append_left hl] at hx
            exact absurd (by rw [(h.index _ _).2 ⟨x, hx, hxn⟩]; rfl) hi
          · rw [List.getElem?_append_right hl] at hx
            have : i - o.trees.length = 0 := by
              rcases hd : i - o.trees.length with _ | k
              · rfl
              · rw [hd] at hx; simp at hx
            congr 1
            omega
      · rw [if_neg hn, h.index n i]
        constructor
        · rintro ⟨x, hx, hxn⟩
          have hl : i < o.trees.length := (List.getElem?_eq_some_iff.1 hx).1
          exact ⟨x, by rw [List.getElem?_append_left hl]; exact hx, hxn⟩
        · rintro ⟨x, hx, hxn⟩
          rcases Nat.lt_or_ge i o.trees.length with hl | hl
          · rw [List.getElem?_append_left hl] at hx
            exact ⟨x, hx, hxn⟩
          · rw [List.getElem?_append_right hl] at hx
            rcases hd : i - o.trees.length with _ | k
            · rw [hd] at hx
              simp only [List.getElem?_cons_zero, Option.some.injEq] at hx
              subst hx
              exact absurd hxn.symm hn
            · rw [hd] at hx; simp at hx
    · intro x
      simp only [List.mem_append, List.mem_singleton, h.trees x]
      constructor
      · rintro (⟨u, hu, e⟩ | e)
        · exact ⟨u, .inl hu, e⟩
        · exact ⟨t, .inr rfl, e⟩
      · rintro ⟨u, hu | rfl, e⟩
        · exact .inl ⟨u, hu, e⟩
        · exact .inr e

theorem holds_view {s : Schema} {dk : Option KeyId} {st : Option TreeVault} {P : Tree → Prop} {o : OpenTrees}
    (h : Holds s dk st P o) (v : View) :
    Holds s dk st (fun u => P u ∨ (v.eager = true ∧ (u = .viewDocMap v.name ∨ u = .viewEntries v.name)) ∨
      (v.eager = false ∧ u = .viewInvalidated v.name)) (o.openView (vaultOf s dk st v.name.collection) v) := by
  unfold OpenTrees.openView
  cases he : v.eager
  · simp only [Bool.false_eq_true, if_false]
    exact holds_congr (holds_open h (.viewInvalidated v.name)) (by intro t; simp)
  · simp only [if_true]
    exact holds_congr (holds_open (holds_open h (.viewDocMap v.name)) (.viewEntries v.name)) (by intro t; simp [or_assoc])

theorem holds_views {s : Schema} {dk : Option KeyId} {st : Option TreeVault} (c : QName) :
    ∀ (l : List View) (P : Tree → Prop) (o : OpenTrees), (∀ v ∈ l, v.name.collection = c) → Holds s dk st P o →
    Holds s dk st (fun u => P u ∨ ∃ v ∈ l, (v.eager = true ∧ (u = .viewDocMap v.name ∨ u = .viewEntries v.name)) ∨
      (v.eager = false ∧ u = .viewInvalidated v.name)) (l.foldl (OpenTrees.openView (vaultOf s dk st c)) o)
  | [], P, o, _, h => holds_congr h (by simp)
  | v :: l, P, o, hc, h => by
    have h1 := holds_view h v
    rw [hc v (by simp)] at h1
    exact holds_congr (holds_views c l _ _ (fun w hw => hc w (by simp [hw])) h1) (by
      intro t; simp [or_assoc])

theorem views_collection {cs : List QName} {key : QName → Option KeyId} {vs : List View} {s : Schema}
    (h : Built cs key vs s) (hf : TypeFixesCollection vs) (c : QName) : ∀ v ∈ s.viewsIn c, v.name.collection = c := by
  obtain ⟨_, _, b3, b4, b5, b6⟩ := built_views h
  intro v hv
  obtain ⟨t, ht, hw⟩ := List.mem_filterMap.1 hv
  obtain ⟨w, hw1, hw2, hw3⟩ := (b5 c t).1 ht
  obtain ⟨hv1, hv2⟩ := b3 t v hw
  rw [← hw3]
  exact hf v hv1 w hw1 (hv2.trans hw2.symm)

theorem holds_for {cs : List QName} {key : QName → Option KeyId} {vs : List View} {s : Schema}
    (h : Built cs key vs s) (hf : TypeFixesCollection vs) {dk : Option KeyId} {st : Option TreeVault} {P : Tree → Prop}
    {o : OpenTrees} (ho : Holds s dk st P o) (c : QName) :
    Holds s dk st (fun u => P u ∨ Needed s [c] u) (o.openFor s c (vaultOf s dk st c)) := by
  refine holds_congr (holds_views c _ _ _ (views_collection h hf c) (holds_open ho (.documents c))) fun t => ?_
  constructor
  · rintro ((hp | rfl) | ⟨v, hv, ⟨he, rfl | rfl⟩ | ⟨he, rfl⟩⟩)
    · exact .inl hp
    · exact .inr (.documents (by simp))
    · exact .inr (.map (by simp) hv he)
    · exact .inr (.entries (by simp) hv he)
    · exact .inr (.invalidated (by simp) hv he)
  · rintro (hp | hn)
    · exact .inl (.inl hp)
    · cases hn with
      | documents hc => rw [List.mem_singleton] at hc; subst hc; exact .inl (.inr rfl)
      | map hc hv he => rw [List.mem_singleton] at hc; subst hc; exact .inr ⟨_, hv, .inl ⟨he, .inl rfl⟩⟩
      | entries hc hv he => rw [List.mem_singleton] at hc; subst hc; exact .inr ⟨_, hv, .inl ⟨he, .inr rfl⟩⟩
      | invalidated hc hv he => rw [List.mem_singleton] at hc; subst hc; exact .inr ⟨_, hv, .inr ⟨he, rfl⟩⟩

theorem needed_iff {s : Schema} {l : List QName} {t : Tree} : Needed s l t ↔ ∃ c ∈ l, Needed s [c] t := by
  constructor
  · intro h
    cases h with
    | documents hc => exact ⟨_, hc, .documents (by simp)⟩
    | map hc hv he => exact ⟨_, hc, .map (by simp) hv he⟩
    | entries hc hv he => exact ⟨_, hc, .entries (by simp) hv he⟩
    | invalidated hc hv he => exact ⟨_, hc, .invalidated (by simp) hv he⟩
  · rintro ⟨c, hc, h⟩
    cases h with
    | documents h => rw [List.mem_singleton] at h; subst h; exact .documents hc
    | map h hv he => rw [List.mem_singleton] at h; subst h; exact .map hc hv he
    | entries h hv he => rw [List.mem_singleton] at h; subst h; exact .entries hc hv he
    | invalidated h hv he => rw [List.mem_singleton] at h; subst h; exact .invalidated hc hv he

theorem needed_cons {s : Schema} {c : QName} {l : List QName} {t : Tree} :
    Needed s (c :: l) t ↔ Needed s [c] t ∨ Needed s l t := by
  rw [needed_iff, needed_iff (l := l)]
  simp

theorem openAll_some {cs : List QName} {key : QName → Option KeyId} {vs : List View} {s : Schema}
    (h : Built cs key vs s) (hf : TypeFixesCollection vs) {dk : Option KeyId} {st : Option TreeVault} :
    ∀ (l : List QName) (P : Tree → Prop) (o o' : OpenTrees), Holds s dk st P o → openAll s dk st l o = some o' →
      Holds s dk st (fun u => P u ∨ Needed s l u) o'
  | [], P, o, o', ho, he => by
    injection he with he
    subst he
    exact holds_congr ho fun t => ⟨.inl, fun ht => ht.resolve_right (fun hn => by cases hn <;> simp_all)⟩
  | c :: l, P, o, o', ho, he => by
    simp only [openAll] at he
    split at he
    · refine holds_congr (openAll_some h hf l _ _ _ (holds_for h hf ho c) he) fun t => ?_
      rw [needed_cons (c := c) (l := l), or_assoc]
    · cases he

theorem openAll_none (s : Schema) (dk : Option KeyId) (st : Option TreeVault) :
    ∀ (l : List QName) (o : OpenTrees), openAll s dk st l o = none ↔ ∃ c ∈ l, c ∉ s.collections
  | [], o => by simp [openAll]
  | c :: l, o => by
    simp only [openAll]
    split
    · rename_i hc
      rw [openAll_none s dk st l]
      simp [hc]
    · rename_i hc
      simp [hc]

theorem holds_finds {s : Schema} {dk : Option KeyId} {st : Option TreeVault} {P : Tree → Prop} {o : OpenTrees}
    (h : Holds s dk st P o) {t : Tree} (ht : P t) : o.finds (treeName t) (kindOf t) = true := by
  obtain ⟨i, hi⟩ := Option.isSome_iff_exists.1 ((holds_index h t).2 ht)
  obtain ⟨x, hx, hn⟩ := (h.index _ _).1 hi
  obtain ⟨t', ht', e⟩ := (h.trees x).1 (List.mem_of_getElem? hx)
  rw [e] at hn
  have := C15_tree_names_distinct _ _ hn
  subst this
  simp [OpenTrees.finds, hi, hx, e]

theorem holds_not_finds {s : Schema} {dk : Option KeyId} {st : Option TreeVault} {P : Tree → Prop} {o : OpenTrees}
    (h : Holds s dk st P o) {t : Tree} (k : Kind) (ht : ¬ P t) : o.finds (treeName t) k = false := by
  have : o.index (treeName t) = none := by
    rcases hi : o.index (treeName t) with _ | i
    · rfl
    · exact absurd ((holds_index h t).1 (by rw [hi]; rfl)) ht
  simp [OpenTrees.finds, this]

theorem eager_found {cs : List QName} {key : QName → Option KeyId} {vs : List View} {s : Schema}
    (h : Built cs key vs s) (hp : TypeFixesPolicy vs) {c : QName} {v : View} (hv : v ∈ s.eagerIn c) :
    v ∈ s.viewsIn c ∧ v.eager = true := by
  obtain ⟨_, _, b3, b4, b5, b6⟩ := built_views h
  obtain ⟨t, ht, hw⟩ := List.mem_filterMap.1 hv
  obtain ⟨w, hw1, hw2, hw3, hw4⟩ := (b6 c t).1 ht
  obtain ⟨hv1, hv2⟩ := b3 t v hw
  refine ⟨List.mem_filterMap.2 ⟨t, (b5 c t).2 ⟨w, hw1, hw2, hw3⟩, hw⟩, ?_⟩
  rw [hp v hv1 w hw1 (hv2.trans hw2.symm), hw4]

/-! ## Theorems -/

/-- The trees that a transaction opens, and locks, are exactly those that its collections need, as what they are, each
once, and through the vault that reads the collection. -/
theorem C95_trees {cs : List QName} {key : QName → Option KeyId} {vs : List View} {s : Schema}
    (h : Built cs key vs s) (hf : TypeFixesCollection vs) {dk : Option KeyId} {st : Option TreeVault} {l : List QName}
    {o : OpenTrees} (ho : openAll s dk st l .empty = some o) :
    (∀ x, x ∈ o.trees ↔ ∃ t, Needed s l t ∧ x.name = treeName t ∧ x.kind = kindOf t ∧
        x.vault = readerVault (key (collOf t)) dk st) ∧
      (∀ (i j : Nat) (x y : Opened), o.trees[i]? = some x → o.trees[j]? = some y → x.name = y.name → i = j) := by
  have hh := openAll_some h hf l _ _ _ (holds_empty s dk st) ho
  obtain ⟨_, hk, _⟩ := built_views h
  have hv : ∀ c, vaultOf s dk st c = readerVault (key c) dk st := by
    intro c
    simp only [vaultOf, hk, writerVault, readerVault]
    cases (key c).or dk <;> cases st <;> simp [newIfNeeded]
  constructor
  · intro x
    rw [hh.trees x]
    constructor
    · rintro ⟨t, ht, e⟩
      subst e
      exact ⟨t, ht.resolve_left id, rfl, rfl, hv _⟩
    · rintro ⟨t, ht, e1, e2, e3⟩
      obtain ⟨n, k, w⟩ := x
      simp only at e1 e2 e3
      exact ⟨t, .inr ht, by rw [e1, e2, e3, hv]⟩
  · intro i j x y hi hj e
    have e1 := (hh.index x.name i).2 ⟨x, hi, rfl⟩
    have e2 := (hh.index x.name j).2 ⟨y, hj, e.symm⟩
    rw [e1] at e2
    exact Option.some.inj e2

/-- A transaction only holds trees of its collections. -/
theorem C95_own {cs : List QName} {key : QName → Option KeyId} {vs : List View} {s : Schema}
    (h : Built cs key vs s) (hf : TypeFixesCollection vs) {l : List QName} {t : Tree} (ht : Needed s l t) :
    collOf t ∈ l := by
  cases ht with
  | documents hc => exact hc
  | map hc hv he => rw [collOf, views_collection h hf _ _ hv]; exact hc
  | entries hc hv he => rw [collOf, views_collection h hf _ _ hv]; exact hc
  | invalidated hc hv he => rw [collOf, views_collection h hf _ _ hv]; exact hc

/-- If the update policy is fixed by the type of the view: every transaction ends as it should, whatever its operations
are and whatever the documents decide; it never panics for a tree that is not open.  (Missing: view types with instances
of different policies, `C95_violated_policy`.) -/
theorem C95_ends_partial {cs : List QName} {key : QName → Option KeyId} {vs : List View} {s : Schema}
    (h : Built cs key vs s) (hf : TypeFixesCollection vs) (hp : TypeFixesPolicy vs) (dk : Option KeyId)
    (st : Option TreeVault) (ops : List (QName × Outcome)) : apply s dk st ops = expected s ops := by
  rcases ho : openAll s dk st (ops.map (·.1)) .empty with _ | o
  · have := (openAll_none s dk st _ _).1 ho
    simp only [apply, ho, expected]
    rw [if_pos]
    obtain ⟨c, hc, hn⟩ := this
    obtain ⟨p, hp1, rfl⟩ := List.mem_map.1 hc
    exact ⟨p, hp1, hn⟩
  · have hh := openAll_some h hf _ _ _ _ (holds_empty s dk st) ho
    have hno : ¬ ∃ p ∈ ops, p.1 ∉ s.collections := by
      rintro ⟨p, hp1, hp2⟩
      have := (openAll_none s dk st (ops.map (·.1)) .empty).2 ⟨p.1, List.mem_map.2 ⟨p, hp1, rfl⟩, hp2⟩
      rw [ho] at this
      cases this
    have hdoc : ∀ c ∈ ops.map (·.1), o.finds (treeName (.documents c)) .versioned = true :=
      fun c hc => holds_finds hh (t := .documents c) (.inr (.documents hc))
    have heag : ∀ c ∈ ops.map (·.1), eagerOk s o c = true := by
      intro c hc
      have hd := hdoc c hc
      simp only [eagerOk, hd, Bool.true_and, Bool.or_eq_true, List.all_eq_true, Bool.and_eq_true]
      refine .inr fun v hv => ?_
      obtain ⟨h1, h2⟩ := eager_found h hp hv
      exact ⟨holds_finds hh (t := .viewDocMap v.name) (.inr (.map hc h1 h2)),
        holds_finds hh (t := .viewEntries v.name) (.inr (.entries hc h1 h2))⟩
    have hinv : ∀ c ∈ ops.map (·.1), invalidateOk s o c = true := by
      intro c hc
      simp only [invalidateOk, List.all_eq_true, List.mem_filter, Bool.not_eq_true']
      rintro v ⟨hv, he⟩
      exact holds_finds hh (t := .viewInvalidated v.name) (.inr (.invalidated hc hv he))
    have hex : ∀ l : List (QName × Outcome), (∀ p ∈ l, p.1 ∈ ops.map (·.1)) →
        execute s o l = if ∃ p ∈ l, p.2 = .error ∨ p.2 = .refused then .error else .done := by
      intro l
      induction l with
      | nil => intro _; simp [execute]
      | cons p l ih =>
        intro hl
        obtain ⟨c, out⟩ := p
        have hc := hl (c, out) (by simp)
        have ih := ih fun q hq => hl q (by simp [hq])
        simp only [execute, hdoc c hc, heag c hc]
        have hcons : (∃ p ∈ (c, out) :: l, p.2 = Outcome.error ∨ p.2 = .refused) ↔
            (out = .error ∨ out = .refused) ∨ ∃ p ∈ l, p.2 = Outcome.error ∨ p.2 = .refused := by
          constructor
          · rintro ⟨p, hp1, hp2⟩
            rcases List.mem_cons.1 hp1 with rfl | hp1
            · exact .inl hp2
            · exact .inr ⟨p, hp1, hp2⟩
          · rintro (h | ⟨p, hp1, hp2⟩)
            · exact ⟨_, List.mem_cons_self, h⟩
            · exact ⟨p, List.mem_cons_of_mem _ hp1, hp2⟩
        by_cases hr : ∃ p ∈ l, p.2 = Outcome.error ∨ p.2 = .refused
        · rw [if_pos (hcons.2 (.inr hr)), ih, if_pos hr]
          cases out <;> rfl
        · rw [ih, if_neg hr]
          cases out
          · rw [if_pos (hcons.2 (.inl (.inl rfl)))]; rfl
          · rw [if_neg (fun h => (hcons.1 h).elim (by simp) hr)]; rfl
          · rw [if_neg (fun h => (hcons.1 h).elim (by simp) hr)]; rfl
          · rw [if_pos (hcons.2 (.inl (.inr rfl)))]; rfl
    simp only [apply, ho, expected, if_neg hno, hex ops fun p hp1 => List.mem_map.2 ⟨p, hp1, rfl⟩]
    by_cases he : ∃ p ∈ ops, p.2 = .error ∨ p.2 = .refused
    · simp only [if_pos he]
    · simp only [if_neg he]
      rw [if_pos]
      simp only [List.all_eq_true, List.mem_filter]
      rintro p ⟨hp1, _⟩
      exact hinv _ (List.mem_map.2 ⟨p, hp1, rfl⟩)

/-- Every tree that a transaction opens for a collection with a key (its own, or the default one) encrypts with that
key. -/
theorem C95_encrypted {cs : List QName} {key : QName → Option KeyId} {vs : List View} {s : Schema}
    (h : Built cs key vs s) (hf : TypeFixesCollection vs) {dk : Option KeyId} {st : Option TreeVault} {l : List QName}
    {o : OpenTrees} (ho : openAll s dk st l .empty = some o) {t : Tree} {x : Opened} (hx : x ∈ o.trees)
    (hn : x.name = treeName t) {k : KeyId} (hk : (key (collOf t)).or dk = some k) :
    ∃ w, x.vault = some w ∧ w.key = some k := by
  obtain ⟨t', _, e1, _, e3⟩ := ((C95_trees h hf ho).1 x).1 hx
  rw [hn] at e1
  have := C15_tree_names_distinct _ _ e1
  subst this
  rw [e3]
  cases st <;> simp [readerVault, hk, newIfNeeded]

/-- The log (with the ids of the documents that a transaction changed) and the key-value store are encrypted if there is
a default key … -/
theorem C95_log_partial (ck : Option KeyId) (k : KeyId) (compression : Bool) :
    ∃ w, logVault ck (some k) (newIfNeeded (some k) compression) = some w ∧ w.key = some k := by
  simp [logVault, newIfNeeded]

/-- … but not for a collection that has a key in a storage that has none: the ids of its documents are in the log in the
clear (or compressed). -/
theorem C95_violated_log (ck : Option KeyId) (compression : Bool) :
    ∀ w, logVault ck none (newIfNeeded none compression) = some w → w.key = none := by
  intro w hw
  cases compression <;> simp [logVault, newIfNeeded] at hw
  rw [← hw]

/-- A collection. -/
def exColl : QName := ⟨"a", "c"⟩

/-- Two instances of one view type, the first one eager, the second one lazy. -/
def exViews : List View := [⟨0, ⟨exColl, "x"⟩, true⟩, ⟨0, ⟨exColl, "y"⟩, false⟩]

/-- The schema that they are registered in. -/
def exSchema : Schema :=
  ⟨[exColl], fun _ => none, fun t => if t = 0 then some ⟨0, ⟨exColl, "y"⟩, false⟩ else none,
    [⟨exColl, "y"⟩, ⟨exColl, "x"⟩], fun c => if c = exColl then [0, 0] else [], fun c => if c = exColl then [0] else []⟩

theorem exSchema_built : Built [exColl] (fun _ => none) exViews exSchema := by
  have h1 := Built.cons (v := ⟨0, ⟨exColl, "x"⟩, true⟩) (Built.nil (cs := [exColl]) (key := fun _ => none)) rfl
  refine .cons h1 (v := ⟨0, ⟨exColl, "y"⟩, false⟩) ?_
  · simp only [Schema.define, Schema.empty, exSchema]
    rw [if_neg (by decide)]
    congr 2
    · funext t; split <;> simp_all
    · funext c; by_cases hc : c = exColl <;> simp [hc]
    · funext c; by_cases hc : c = exColl <;> simp [hc]

theorem exViews_collection : TypeFixesCollection exViews := by
  intro v hv w hw _
  simp only [exViews, List.mem_cons, List.not_mem_nil, or_false] at hv hw
  rcases hv with rfl | rfl <;> rcases hw with rfl | rfl <;> rfl

/-- Two instances of one view type are registered under two names, the first one eager and the second one lazy: every
transaction that changes a document of the collection panics. -/
theorem C95_violated_policy (dk : Option KeyId) (st : Option TreeVault) :
    ∃ (c : QName) (vs : List View) (s : Schema), Built [c] (fun _ => none) vs s ∧ TypeFixesCollection vs ∧
      apply s dk st [(c, .changed)] = .panics := by
  refine ⟨exColl, exViews, exSchema, exSchema_built, exViews_collection, ?_⟩
  rcases ho : openAll exSchema dk st [exColl] .empty with _ | o
  · have := (openAll_none exSchema dk st _ _).1 ho
    simp [exSchema] at this
  · have hh := openAll_some exSchema_built exViews_collection _ _ _ _ (holds_empty exSchema dk st) ho
    have hd : o.finds (treeName (.documents exColl)) .versioned = true :=
      holds_finds hh (t := .documents exColl) (.inr (.documents (by simp)))
    have hm : o.finds (treeName (.viewDocMap ⟨exColl, "y"⟩)) .unversioned = false := by
      refine holds_not_finds hh _ ?_
      rintro (h | h)
      · exact h
      · generalize hn : (⟨exColl, "y"⟩ : VName) = n at h
        cases h with
        | map hc hv he =>
          rw [List.mem_singleton] at hc
          subst hc
          simp [Schema.viewsIn, exSchema] at hv
          subst hv
          cases he
    have he : eagerOk exSchema o exColl = false := by
      simp [eagerOk, hd, Schema.eagerIn, exSchema, hm]
    simp [apply, ho, execute, hd, he]

/-! ## Examples -/

/-- A collection with a key, an eager and a lazy view. -/
def exGood : Schema :=
  ⟨[exColl], fun _ => some .master, fun t => if t = 1 then some ⟨1, ⟨exColl, "y"⟩, false⟩ else
      if t = 0 then some ⟨0, ⟨exColl, "x"⟩, true⟩ else none,
    [⟨exColl, "y"⟩, ⟨exColl, "x"⟩], fun c => if c = exColl then [0, 1] else [], fun c => if c = exColl then [0] else []⟩

theorem exGood_built : Built [exColl] (fun _ => some .master)
    [⟨0, ⟨exColl, "x"⟩, true⟩, ⟨1, ⟨exColl, "y"⟩, false⟩] exGood := by
  have h1 := Built.cons (v := ⟨0, ⟨exColl, "x"⟩, true⟩) (Built.nil (cs := [exColl]) (key := fun _ => some .master)) rfl
  refine .cons h1 (v := ⟨1, ⟨exColl, "y"⟩, false⟩) ?_
  · simp only [Schema.define, Schema.empty, exGood]
    rw [if_neg (by decide)]
    congr 2
    · funext c; by_cases hc : c = exColl <;> simp [hc]
    · funext c; by_cases hc : c = exColl <;> simp [hc]

example : TypeFixesCollection [⟨0, ⟨exColl, "x"⟩, true⟩, ⟨1, ⟨exColl, "y"⟩, false⟩] ∧
    TypeFixesPolicy [⟨0, ⟨exColl, "x"⟩, true⟩, ⟨1, ⟨exColl, "y"⟩, false⟩] := by
  constructor <;> intro v hv w hw <;> simp at hv hw <;> rcases hv with rfl | rfl <;> rcases hw with rfl | rfl <;> simp

example : expected exGood [(exColl, .changed), (exColl, .same)] = .done ∧
    expected exGood [(exColl, .changed), (exColl, .refused)] = .error ∧
    expected exGood [(exColl, .changed), (⟨"a", "d"⟩, .changed)] = .notFound ∧
    Needed exGood [exColl] (.viewInvalidated ⟨exColl, "y"⟩) ∧ ¬ Needed exGood [exColl] (.viewEntries ⟨exColl, "y"⟩) := by
  refine ⟨by simp [expected, exGood], by simp [expected, exGood], by simp [expected, exGood, exColl], ?_, ?_⟩
  · exact .invalidated (c := exColl) (v := ⟨1, ⟨exColl, "y"⟩, false⟩) (by simp) (by simp [Schema.viewsIn, exGood]) rfl
  · intro h
    generalize hn : (⟨exColl, "y"⟩ : VName) = n at h
    cases h with
    | entries hc hv he =>
      rw [List.mem_singleton] at hc
      subst hc
      simp [Schema.viewsIn, exGood] at hv
      rcases hv with rfl | rfl
      · simp at hn
      · cases he

end Bonsai.Open
