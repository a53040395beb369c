import Verif.Schema.Model

/-!
# C78: a schematic knows exactly the collections and views that were defined
-/
set_option linter.unusedSimpArgs false
set_option linter.unusedSectionVars false
set_option linter.unusedVariables false

namespace Bonsai.Schm
open Bonsai Bonsai.Names Bonsai.Store

/-! ## Maps -/

section maps
variable {α β : Type} [DecidableEq α]

theorem find_append (m m' : List (α × β)) (a : α) : find (m ++ m') a = (find m a).or (find m' a) := by
  simp only [find, List.find?_append]
  cases m.find? fun p => p.1 = a <;> simp

theorem find_filter_self (m : List (α × β)) (a : α) : find (m.filter fun p => p.1 ≠ a) a = none := by
  simp only [find, Option.map_eq_none_iff, List.find?_eq_none, List.mem_filter]
  intro p hp
  simpa using hp.2

theorem find_filter_other (m : List (α × β)) {a b : α} (h : b ≠ a) :
    find (m.filter fun p => p.1 ≠ a) b = find m b := by
  induction m with
  | nil => rfl
  | cons p m ih =>
    simp only [find] at ih ⊢
    by_cases hp : p.1 = a
    · have hb : ¬ p.1 = b := fun hc => h (hc.symm.trans hp)
      rw [List.filter_cons_of_neg (by simpa using hp), ih, List.find?_cons_of_neg (by simpa using hb)]
    · rw [List.filter_cons_of_pos (by simpa using hp)]
      by_cases hb : p.1 = b
      · rw [List.find?_cons_of_pos (by simpa using hb), List.find?_cons_of_pos (by simpa using hb)]
      · rw [List.find?_cons_of_neg (by simpa using hb), List.find?_cons_of_neg (by simpa using hb), ih]

theorem find_put (m : List (α × β)) (a b : α) (x : β) : find (put m a x) b = if b = a then some x else find m b := by
  rw [put, find_append]
  by_cases h : b = a
  · subst h
    rw [find_filter_self]
    simp [find]
  · rw [find_filter_other m h, if_neg h]
    have hn : find [(a, x)] b = none := by simp [find, Ne.symm h]
    rw [hn, Option.or_none]

theorem put_new (m : List (α × β)) (a : α) (x : β) (h : find m a = none) : put m a x = m ++ [(a, x)] := by
  rw [put]
  congr 1
  rw [List.filter_eq_self]
  intro p hp
  simp only [find, Option.map_eq_none_iff, List.find?_eq_none] at h
  simpa using h p hp

theorem find_none_iff (m : List (α × β)) (a : α) : find m a = none ↔ a ∉ m.map (·.1) := by
  simp only [find, Option.map_eq_none_iff, List.find?_eq_none, List.mem_map]
  simp only [decide_eq_true_eq]
  constructor
  · rintro h ⟨p, hp, rfl⟩; exact h p hp rfl
  · intro h p hp he; exact h ⟨p, hp, he⟩

theorem keys_put (m : List (α × β)) (a : α) (x : β) (h : (m.map (·.1)).Nodup) : ((put m a x).map (·.1)).Nodup := by
  rw [put, List.map_append, List.nodup_append]
  refine ⟨h.sublist (List.filter_sublist.map _), by simp, ?_⟩
  intro b hb c hc
  simp only [List.map_cons, List.map_nil, List.mem_singleton] at hc
  rw [List.mem_map] at hb
  obtain ⟨p, hp, rfl⟩ := hb
  have := (List.mem_filter.mp hp).2
  rw [hc]
  simpa using this

theorem getD_pushTo {γ : Type} (m : List (α × List γ)) (a b : α) (x : γ) :
    (find (pushTo m a x) b).getD [] = if b = a then (find m b).getD [] ++ [x] else (find m b).getD [] := by
  rw [pushTo, find_put]
  by_cases h : b = a
  · subst h; simp
  · simp [h]

theorem nodup_map_inj {γ δ : Type} {f : γ → δ} {l : List γ} (h : (l.map f).Nodup) {a b : γ} (ha : a ∈ l) (hb : b ∈ l)
    (he : f a = f b) : a = b := by
  induction l with
  | nil => cases ha
  | cons x l ih =>
    simp only [List.map_cons, List.nodup_cons] at h
    rcases List.mem_cons.mp ha with rfl | ha
    · rcases List.mem_cons.mp hb with rfl | hb
      · rfl
      · exact absurd (he ▸ List.mem_map_of_mem (f := f) hb) h.1
    · rcases List.mem_cons.mp hb with hbx | hb
      · exact absurd ((he.trans (congrArg f hbx)) ▸ List.mem_map_of_mem (f := f) ha) h.1
      · exact ih h.2 ha hb

theorem find_of_mem {m : List (α × β)} (h : (m.map (·.1)).Nodup) {a : α} {x : β} (hm : (a, x) ∈ m) : find m a = some x := by
  induction m with
  | nil => cases hm
  | cons p m ih =>
    simp only [List.map_cons, List.nodup_cons] at h
    rcases List.mem_cons.mp hm with rfl | hm
    · simp [find]
    · have hne : ¬ p.1 = a := fun he => h.1 (he ▸ List.mem_map_of_mem (f := (·.1)) hm)
      have := ih h.2 hm
      simp only [find] at this ⊢
      rw [List.find?_cons_of_neg (by simpa using hne), this]

theorem mem_of_find {m : List (α × β)} {a : α} {x : β} (h : find m a = some x) : (a, x) ∈ m := by
  simp only [find, Option.map_eq_some_iff] at h
  obtain ⟨p, hp, rfl⟩ := h
  have h1 := List.mem_of_find?_eq_some hp
  have h2 := List.find?_some hp
  simp only [decide_eq_true_eq] at h2
  rw [← h2]; exact h1

end maps

/-! ## The calls, one after the other -/

/-- One definition. -/
inductive Def where
  | coll (c : CollDef)
  | view (v : ViewDef)

mutual
def Call.flat : Call → List Def
  | .view v => [.view v]
  | .collection c views => .coll c :: flatAll views

def flatAll : List Call → List Def
  | [] => []
  | c :: cs => c.flat ++ flatAll cs
end

def Def.run (s : Schematic) : Def → Except SErr Schematic
  | .coll c => s.addCollection c
  | .view v => s.addView v

def runDefs : List Def → Schematic → Except SErr Schematic
  | [], s => .ok s
  | d :: ds, s =>
    match d.run s with
    | .error e => .error e
    | .ok s => runDefs ds s

def Def.colls : Def → List CollDef
  | .coll c => [c]
  | .view _ => []

def Def.views : Def → List ViewDef
  | .coll _ => []
  | .view v => [v]

theorem runDefs_append (ds ds' : List Def) (s : Schematic) :
    runDefs (ds ++ ds') s = match runDefs ds s with
      | .error e => .error e
      | .ok s => runDefs ds' s := by
  induction ds generalizing s with
  | nil => rfl
  | cons d ds ih =>
    simp only [List.cons_append, runDefs]
    cases d.run s with
    | error e => rfl
    | ok s' => exact ih s'

mutual
theorem Call.run_eq : ∀ (c : Call) (s : Schematic), c.run s = runDefs c.flat s
  | .view v, s => by
    simp only [Call.run, Call.flat, runDefs, Def.run]
    cases s.addView v <;> rfl
  | .collection c views, s => by
    simp only [Call.run, Call.flat, runDefs, Def.run]
    cases s.addCollection c with
    | error e => rfl
    | ok s' => exact runAll_eq views s'

theorem runAll_eq : ∀ (cs : List Call) (s : Schematic), runAll cs s = runDefs (flatAll cs) s
  | [], s => rfl
  | c :: cs, s => by
    simp only [runAll, flatAll]
    rw [runDefs_append, Call.run_eq c s]
    cases runDefs c.flat s with
    | error e => rfl
    | ok s' => exact runAll_eq cs s'
end

mutual
theorem Call.colls_eq : ∀ c : Call, c.colls = c.flat.flatMap Def.colls
  | .view v => by simp [Call.colls, Call.flat, Def.colls]
  | .collection c views => by simp [Call.colls, Call.flat, Def.colls, collsOf_eq views]

theorem collsOf_eq : ∀ cs : List Call, collsOf cs = (flatAll cs).flatMap Def.colls
  | [] => rfl
  | c :: cs => by simp [collsOf, flatAll, List.flatMap_append, Call.colls_eq c, collsOf_eq cs]
end

mutual
theorem Call.viewDefs_eq : ∀ c : Call, c.viewDefs = c.flat.flatMap Def.views
  | .view v => by simp [Call.viewDefs, Call.flat, Def.views]
  | .collection c views => by simp [Call.viewDefs, Call.flat, Def.views, viewsOf_eq views]

theorem viewsOf_eq : ∀ cs : List Call, viewsOf cs = (flatAll cs).flatMap Def.views
  | [] => rfl
  | c :: cs => by simp [viewsOf, flatAll, List.flatMap_append, Call.viewDefs_eq c, viewsOf_eq cs]
end

/-! ## What the schematic holds -/

/-- `s` is the schematic of these definitions. -/
structure Holds (cs : List CollDef) (vs : List ViewDef) (s : Schematic) : Prop where
  cnames : (cs.map (·.name)).Nodup
  vnames : (vs.map (·.view.name)).Nodup
  contained : s.contained = cs.map fun c => (c.name, c.description)
  byType : ∀ t, (find s.byType t).isSome ↔ ∃ c ∈ cs, c.type = t
  keys : s.keys = cs.filterMap fun c => c.key.map fun k => (c.name, k)
  generators : s.generators = cs.map fun c => (c.name, c.nextId)
  views : ∀ t, find s.views t = (vs.reverse.find? fun v => v.type = t).map (·.view)
  viewKeys : (s.views.map (·.1)).Nodup
  byName : s.byName = vs.map fun v => (v.view.name, v.type)
  byCollection : ∀ c, (find s.byCollection c).getD [] = (vs.filter fun v => v.view.name.collection = c).map (·.type)
  eager : ∀ c, (find s.eager c).getD [] =
    ((vs.filter fun v => v.view.policy.isEager).filter fun v => v.view.name.collection = c).map (·.type)

theorem holds_new : Holds [] [] .new := by
  constructor <;> simp [Schematic.new, find]

theorem holds_coll {cs : List CollDef} {vs : List ViewDef} {s : Schematic} (h : Holds cs vs s) (c : CollDef) :
    (c.name ∈ cs.map (·.name) ∧ s.addCollection c = .error .collectionAlreadyDefined) ∨
    (c.name ∉ cs.map (·.name) ∧ ∃ s', s.addCollection c = .ok s' ∧ Holds (cs ++ [c]) vs s') := by
  have hc : s.contained.map (·.1) = cs.map (·.name) := by rw [h.contained, List.map_map]; rfl
  by_cases hm : c.name ∈ cs.map (·.name)
  · refine .inl ⟨hm, ?_⟩
    have hn : find s.contained c.name ≠ none := by rw [Ne, find_none_iff, hc]; exact fun hk => hk hm
    obtain ⟨x, hx⟩ := Option.ne_none_iff_exists'.mp hn
    simp only [Schematic.addCollection, hx]
  · refine .inr ⟨hm, ?_⟩
    have hn : find s.contained c.name = none := by rw [find_none_iff, hc]; exact hm
    have hg : find s.generators c.name = none := by
      rw [find_none_iff, h.generators, List.map_map]; exact hm
    have hk : find s.keys c.name = none := by
      rw [find_none_iff, h.keys]
      intro hk
      simp only [List.mem_map, List.mem_filterMap, Option.map_eq_some_iff] at hk
      obtain ⟨p, ⟨d, hd, k, _, rfl⟩, he⟩ := hk
      exact hm (he ▸ List.mem_map_of_mem (f := (·.name)) hd)
    refine ⟨_, by simp only [Schematic.addCollection, hn]; rfl, ?_⟩
    refine ⟨?_, h.vnames, ?_, ?_, ?_, ?_, h.views, h.viewKeys, h.byName, h.byCollection, h.eager⟩
    · rw [List.map_append, List.nodup_append]
      refine ⟨h.cnames, by simp, ?_⟩
      intro a ha b hb
      simp only [List.map_cons, List.map_nil, List.mem_singleton] at hb
      rw [hb]
      intro he
      exact hm (he ▸ ha)
    · show put s.contained c.name c.description = _
      rw [put_new _ _ _ hn, h.contained, List.map_append]; rfl
    · intro t
      show (find (put s.byType c.type c.name) t).isSome ↔ _
      rw [find_put]
      by_cases ht : t = c.type
      · simp [ht]
      · rw [if_neg ht, h.byType t]
        simp only [List.mem_append, List.mem_singleton]
        constructor
        · rintro ⟨d, hd, rfl⟩; exact ⟨d, .inl hd, rfl⟩
        · rintro ⟨d, hd | rfl, he⟩
          · exact ⟨d, hd, he⟩
          · exact absurd he.symm ht
    · rw [List.filterMap_append]
      cases hck : c.key with
      | none => simp [hck, h.keys]
      | some k =>
        show put s.keys c.name k = _
        rw [put_new _ _ _ hk, h.keys]
        simp [hck]
    · show put s.generators c.name c.nextId = _
      rw [put_new _ _ _ hg, h.generators, List.map_append]; rfl

theorem holds_view {cs : List CollDef} {vs : List ViewDef} {s : Schematic} (h : Holds cs vs s) (v : ViewDef) :
    (v.view.name ∈ vs.map (·.view.name) ∧ s.addView v = .error (.viewAlreadyRegistered v.view.name)) ∨
    (v.view.name ∉ vs.map (·.view.name) ∧ ∃ s', s.addView v = .ok s' ∧ Holds cs (vs ++ [v]) s') := by
  have hc : s.byName.map (·.1) = vs.map (·.view.name) := by rw [h.byName, List.map_map]; rfl
  by_cases hm : v.view.name ∈ vs.map (·.view.name)
  · refine .inl ⟨hm, ?_⟩
    have hn : find s.byName v.view.name ≠ none := by rw [Ne, find_none_iff, hc]; exact fun hk => hk hm
    obtain ⟨x, hx⟩ := Option.ne_none_iff_exists'.mp hn
    simp only [Schematic.addView, hx]
  · refine .inr ⟨hm, ?_⟩
    have hn : find s.byName v.view.name = none := by rw [find_none_iff, hc]; exact hm
    refine ⟨_, by simp only [Schematic.addView, hn]; rfl, ?_⟩
    refine ⟨h.cnames, ?_, h.contained, h.byType, h.keys, h.generators, ?_, ?_, ?_, ?_, ?_⟩
    · rw [List.map_append, List.nodup_append]
      refine ⟨h.vnames, by simp, ?_⟩
      intro a ha b hb
      simp only [List.map_cons, List.map_nil, List.mem_singleton] at hb
      rw [hb]
      intro he
      exact hm (he ▸ ha)
    · intro t
      show find (put s.views v.type v.view) t = _
      rw [find_put, List.reverse_append, List.reverse_singleton, List.singleton_append]
      by_cases ht : t = v.type
      · rw [if_pos ht, List.find?_cons_of_pos (by simp [ht])]; rfl
      · rw [if_neg ht, List.find?_cons_of_neg (by simpa using Ne.symm ht), h.views t]
    · exact keys_put _ _ _ h.viewKeys
    · show put s.byName v.view.name v.type = _
      rw [put_new _ _ _ hn, h.byName, List.map_append]; rfl
    · intro c
      show (find (pushTo s.byCollection v.view.name.collection v.type) c).getD [] = _
      rw [getD_pushTo, h.byCollection c, List.filter_append]
      by_cases hcc : c = v.view.name.collection
      · simp [hcc]
      · simp [hcc, Ne.symm hcc]
    · intro c
      by_cases he : v.view.policy.isEager
      · show (find (if v.view.policy.isEager then pushTo s.eager v.view.name.collection v.type else s.eager) c).getD [] = _
        rw [if_pos he, getD_pushTo, h.eager c, List.filter_append, List.filter_append]
        by_cases hcc : c = v.view.name.collection
        · simp [hcc, he]
        · simp [hcc, he, Ne.symm hcc]
      · show (find (if v.view.policy.isEager then pushTo s.eager v.view.name.collection v.type else s.eager) c).getD [] = _
        rw [if_neg he, h.eager c, List.filter_append]
        simp [he]

/-- What running the definitions gives. -/
theorem runDefs_spec (ds : List Def) {cs : List CollDef} {vs : List ViewDef} {s : Schematic} (h : Holds cs vs s) :
    (∃ s', runDefs ds s = .ok s' ∧ Holds (cs ++ ds.flatMap Def.colls) (vs ++ ds.flatMap Def.views) s') ∨
    (∃ pre c post, ds = pre ++ .coll c :: post ∧ c.name ∈ (cs ++ pre.flatMap Def.colls).map (·.name) ∧
      runDefs ds s = .error .collectionAlreadyDefined) ∨
    (∃ pre v post, ds = pre ++ .view v :: post ∧ v.view.name ∈ (vs ++ pre.flatMap Def.views).map (·.view.name) ∧
      runDefs ds s = .error (.viewAlreadyRegistered v.view.name)) := by
  induction ds generalizing cs vs s with
  | nil => exact .inl ⟨s, rfl, by simpa using h⟩
  | cons d ds ih =>
    cases d with
    | coll c =>
      rcases holds_coll h c with ⟨hm, he⟩ | ⟨hm, s', hs', hh⟩
      · exact .inr (.inl ⟨[], c, ds, rfl, by simpa using hm, by simp only [runDefs, Def.run, he]⟩)
      · have hr : runDefs (.coll c :: ds) s = runDefs ds s' := by simp only [runDefs, Def.run, hs']
        rw [hr]
        rcases ih hh with ⟨s2, h2, hh2⟩ | ⟨pre, c', post, rfl, hm', he'⟩ | ⟨pre, c', post, rfl, hm', he'⟩
        · refine .inl ⟨s2, h2, ?_⟩
          simpa [Def.colls, Def.views, List.append_assoc] using hh2
        · exact .inr (.inl ⟨.coll c :: pre, c', post, rfl, by simpa [Def.colls] using hm', he'⟩)
        · exact .inr (.inr ⟨.coll c :: pre, c', post, rfl, by simpa [Def.views] using hm', he'⟩)
    | view v =>
      rcases holds_view h v with ⟨hm, he⟩ | ⟨hm, s', hs', hh⟩
      · exact .inr (.inr ⟨[], v, ds, rfl, by simpa using hm, by simp only [runDefs, Def.run, he]⟩)
      · have hr : runDefs (.view v :: ds) s = runDefs ds s' := by simp only [runDefs, Def.run, hs']
        rw [hr]
        rcases ih hh with ⟨s2, h2, hh2⟩ | ⟨pre, c', post, rfl, hm', he'⟩ | ⟨pre, c', post, rfl, hm', he'⟩
        · refine .inl ⟨s2, h2, ?_⟩
          simpa [Def.colls, Def.views, List.append_assoc] using hh2
        · exact .inr (.inl ⟨.view v :: pre, c', post, rfl, by simpa [Def.colls] using hm', he'⟩)
        · exact .inr (.inr ⟨.view v :: pre, c', post, rfl, by simpa [Def.views] using hm', he'⟩)

theorem not_nodup_of_dup {α : Type} {l l' : List α} {a : α} (h : a ∈ l) : ¬ (l ++ a :: l').Nodup := by
  intro hn
  exact (List.nodup_append.mp hn).2.2 a h a (by simp) rfl

theorem fromSchema_spec (calls : List Call) :
    (∃ s, fromSchema calls = .ok s ∧ Holds (collsOf calls) (viewsOf calls) s) ∨
    (¬ ((collsOf calls).map (·.name)).Nodup ∧ fromSchema calls = .error .collectionAlreadyDefined) ∨
    (∃ n, ¬ ((viewsOf calls).map (·.view.name)).Nodup ∧ fromSchema calls = .error (.viewAlreadyRegistered n) ∧
      2 ≤ ((viewsOf calls).map (·.view.name)).count n) := by
  rw [fromSchema, runAll_eq, collsOf_eq, viewsOf_eq]
  rcases runDefs_spec (flatAll calls) holds_new with ⟨s, hs, hh⟩ | ⟨pre, c, post, he, hm, hr⟩ | ⟨pre, v, post, he, hm, hr⟩
  · exact .inl ⟨s, hs, by simpa using hh⟩
  · refine .inr (.inl ⟨?_, hr⟩)
    rw [he, List.flatMap_append, List.map_append, List.flatMap_cons, Def.colls, List.singleton_append, List.map_cons]
    exact not_nodup_of_dup (by simpa using hm)
  · refine .inr (.inr ⟨_, ?_, hr, ?_⟩)
    · rw [he, List.flatMap_append, List.map_append, List.flatMap_cons, Def.views, List.singleton_append, List.map_cons]
      exact not_nodup_of_dup (by simpa using hm)
    · rw [he, List.flatMap_append, List.map_append, List.flatMap_cons, Def.views, List.singleton_append, List.map_cons,
        List.count_append, List.count_cons_self]
      have : 0 < ((pre.flatMap Def.views).map (·.view.name)).count v.view.name :=
        List.count_pos_iff.mpr (by simpa using hm)
      omega

/-! ## C78 -/

/-- A schema is accepted exactly when no two collections have the same name and no two views have the same name. -/
theorem C78_accepted_iff (calls : List Call) :
    (∃ s, fromSchema calls = .ok s) ↔
      ((collsOf calls).map (·.name)).Nodup ∧ ((viewsOf calls).map (·.view.name)).Nodup := by
  rcases fromSchema_spec calls with ⟨s, hs, hh⟩ | ⟨hn, he⟩ | ⟨n, hn, he, _⟩
  · exact ⟨fun _ => ⟨hh.cnames, hh.vnames⟩, fun _ => ⟨s, hs⟩⟩
  · rw [he]; exact ⟨fun ⟨s, hs⟩ => (by cases hs), fun h => absurd h.1 hn⟩
  · rw [he]; exact ⟨fun ⟨s, hs⟩ => (by cases hs), fun h => absurd h.2 hn⟩

/-- The error tells what was defined twice. -/
theorem C78_error (calls : List Call) (e : SErr) (h : fromSchema calls = .error e) :
    (e = .collectionAlreadyDefined ∧ ¬ ((collsOf calls).map (·.name)).Nodup) ∨
    ∃ n, e = .viewAlreadyRegistered n ∧ 2 ≤ ((viewsOf calls).map (·.view.name)).count n := by
  rcases fromSchema_spec calls with ⟨s, hs, hh⟩ | ⟨hn, he⟩ | ⟨n, hn, he, hc⟩
  · rw [hs] at h; cases h
  · rw [he] at h; cases h; exact .inl ⟨rfl, hn⟩
  · rw [he] at h; cases h; exact .inr ⟨n, rfl, hc⟩

theorem holds_of_ok {calls : List Call} {s : Schematic} (h : fromSchema calls = .ok s) :
    Holds (collsOf calls) (viewsOf calls) s := by
  rcases fromSchema_spec calls with ⟨s', hs, hh⟩ | ⟨hn, he⟩ | ⟨n, hn, he, _⟩
  · rw [hs] at h; cases h; exact hh
  · rw [he] at h; cases h
  · rw [he] at h; cases h

/-- The collections are those that were defined; each is found by its type and has the key description, the encryption
key and the ids of its definition. -/
theorem C78_collections (calls : List Call) (s : Schematic) (h : fromSchema calls = .ok s) :
    s.collections = (collsOf calls).map (·.name) ∧
    (∀ t, s.containsCollection t = true ↔ ∃ c ∈ collsOf calls, c.type = t) ∧
    (∀ c ∈ collsOf calls, s.description c.name = some c.description ∧ s.encryptionKey c.name = c.key ∧
      ∀ last, s.nextId c.name last = some (c.nextId last)) ∧
    (∀ n, n ∉ (collsOf calls).map (·.name) →
      s.description n = none ∧ s.encryptionKey n = none ∧ ∀ last, s.nextId n last = none) := by
  have hh := holds_of_ok h
  refine ⟨by rw [Schematic.collections, hh.contained, List.map_map]; rfl, hh.byType, ?_, ?_⟩
  · intro c hc
    refine ⟨?_, ?_, ?_⟩
    · rw [Schematic.description]
      refine find_of_mem ?_ ?_
      · rw [hh.contained, List.map_map]; exact hh.cnames
      · rw [hh.contained]; exact List.mem_map_of_mem (f := fun c : CollDef => (c.name, c.description)) hc
    · rw [Schematic.encryptionKey]
      cases hk : c.key with
      | none =>
        rw [find_none_iff, hh.keys]
        intro hm
        simp only [List.mem_map, List.mem_filterMap, Option.map_eq_some_iff] at hm
        obtain ⟨p, ⟨d, hd, k, hkd, rfl⟩, he⟩ := hm
        have : d = c := by
          exact nodup_map_inj hh.cnames hd hc he
        rw [this, hk] at hkd
        cases hkd
      | some k =>
        refine find_of_mem ?_ ?_
        · rw [hh.keys]
          have : ((collsOf calls).filterMap fun c => c.key.map fun k => (c.name, k)).map (·.1) =
              ((collsOf calls).filter fun c => c.key.isSome).map (·.name) := by
            induction collsOf calls with
            | nil => rfl
            | cons d ds ih =>
              cases hd : d.key with
              | none => simp [hd, ih]
              | some k => simp [hd, ih]
          rw [this]
          exact hh.cnames.sublist (List.filter_sublist.map _)
        · rw [hh.keys, List.mem_filterMap]
          exact ⟨c, hc, by rw [hk]; rfl⟩
    · intro last
      rw [Schematic.nextId]
      have : find s.generators c.name = some c.nextId := by
        refine find_of_mem ?_ ?_
        · rw [hh.generators, List.map_map]; exact hh.cnames
        · rw [hh.generators]; exact List.mem_map_of_mem (f := fun c : CollDef => (c.name, c.nextId)) hc
      rw [this]; rfl
  · intro n hn
    refine ⟨?_, ?_, ?_⟩
    · rw [Schematic.description, find_none_iff, hh.contained, List.map_map]; exact hn
    · rw [Schematic.encryptionKey, find_none_iff, hh.keys]
      intro hm
      simp only [List.mem_map, List.mem_filterMap, Option.map_eq_some_iff] at hm
      obtain ⟨p, ⟨d, hd, k, hkd, rfl⟩, he⟩ := hm
      exact hn (he ▸ List.mem_map_of_mem (f := (·.name)) hd)
    · intro last
      have : find s.generators n = none := by rw [find_none_iff, hh.generators, List.map_map]; exact hn
      rw [Schematic.nextId, this]; rfl

/-- Names that no definition has are not found, whatever the types. -/
theorem C78_unknown_view (calls : List Call) (s : Schematic) (h : fromSchema calls = .ok s) :
    (∀ n, n ∉ (viewsOf calls).map (·.view.name) → s.viewByName n = none) ∧
    (∀ t, t ∉ (viewsOf calls).map (·.type) → s.viewOf t = none) ∧
    (∀ c, (∀ v ∈ viewsOf calls, v.view.name.collection ≠ c) → s.viewsIn c = [] ∧ s.eagerIn c = []) := by
  have hh := holds_of_ok h
  refine ⟨?_, ?_, ?_⟩
  · intro n hn
    have : find s.byName n = none := by rw [find_none_iff, hh.byName, List.map_map]; exact hn
    rw [Schematic.viewByName, this]; rfl
  · intro t ht
    rw [Schematic.viewOf, hh.views t]
    rw [Option.map_eq_none_iff, List.find?_eq_none]
    intro v hv
    simp only [decide_eq_true_eq]
    intro he
    exact ht (he ▸ List.mem_map_of_mem (f := (·.type)) (List.mem_reverse.mp hv))
  · intro c hc
    have h1 : (viewsOf calls).filter (fun v => v.view.name.collection = c) = [] := by
      rw [List.filter_eq_nil_iff]; intro v hv; simpa using hc v hv
    have h2 : ((viewsOf calls).filter fun v => v.view.policy.isEager).filter (fun v => v.view.name.collection = c) = [] := by
      rw [List.filter_eq_nil_iff]; intro v hv; simpa using hc v (List.mem_filter.mp hv).1
    rw [Schematic.viewsIn, Schematic.eagerIn, hh.byCollection, hh.eager, h1, h2]
    exact ⟨rfl, rfl⟩

theorem views_find {calls : List Call} {s : Schematic} (hh : Holds (collsOf calls) (viewsOf calls) s)
    (ht : ((viewsOf calls).map (·.type)).Nodup) {v : ViewDef} (hv : v ∈ viewsOf calls) : find s.views v.type = some v.view := by
  rw [hh.views]
  have hnd : (((viewsOf calls).reverse.map fun v => (v.type, v.view)).map (·.1)).Nodup := by
    rw [List.map_map]
    have : ((viewsOf calls).reverse.map fun v => v.type) = ((viewsOf calls).map (·.type)).reverse := by
      rw [List.map_reverse]
    show ((viewsOf calls).reverse.map fun v => v.type).Nodup
    rw [this, List.nodup_iff_pairwise_ne, List.pairwise_reverse]
    exact (List.nodup_iff_pairwise_ne.mp ht).imp fun h => Ne.symm h
  have hf := find_of_mem hnd (a := v.type) (x := v.view)
    (List.mem_map_of_mem (f := fun v : ViewDef => (v.type, v.view)) (List.mem_reverse.mpr hv))
  have key : ∀ l : List ViewDef, find (l.map fun v => (v.type, v.view)) v.type = (l.find? fun w => w.type = v.type).map (·.view) := by
    intro l
    rw [find, List.find?_map, Option.map_map]; rfl
  rw [key] at hf
  exact hf

theorem filterMap_views {calls : List Call} {s : Schematic} (hh : Holds (collsOf calls) (viewsOf calls) s)
    (ht : ((viewsOf calls).map (·.type)).Nodup) (l : List ViewDef) (hl : ∀ v ∈ l, v ∈ viewsOf calls) :
    (l.map (·.type)).filterMap (find s.views) = l.map (·.view) := by
  induction l with
  | nil => rfl
  | cons v l ih =>
    rw [List.map_cons, List.filterMap_cons_some (views_find hh ht (hl v (by simp))), List.map_cons,
      ih fun w hw => hl w (by simp [hw])]

/-- The views are those that were defined, under their names and types, and in the order of definition in their
collection.  Partial: no two of them have the same type. -/
theorem C78_views_partial (calls : List Call) (s : Schematic) (h : fromSchema calls = .ok s)
    (ht : ((viewsOf calls).map (·.type)).Nodup) :
    (∀ v ∈ viewsOf calls, s.viewByName v.view.name = some v.view ∧ s.viewOf v.type = some v.view) ∧
    (∀ v, v ∈ s.allViews ↔ ∃ d ∈ viewsOf calls, d.view = v) ∧ (s.allViews.map (·.name)).Nodup ∧
    (∀ c, s.viewsIn c = ((viewsOf calls).map (·.view)).filter fun v => v.name.collection = c) ∧
    (∀ c, s.eagerIn c = (((viewsOf calls).map (·.view)).filter fun v => v.name.collection = c).filter fun v => v.policy.isEager) := by
  have hh := holds_of_ok h
  have hall : ∀ v, v ∈ s.allViews ↔ ∃ d ∈ viewsOf calls, d.view = v := by
    intro v
    rw [Schematic.allViews, List.mem_map]
    constructor
    · rintro ⟨⟨t, w⟩, hp, rfl⟩
      have hf := find_of_mem hh.viewKeys hp
      rw [hh.views, Option.map_eq_some_iff] at hf
      obtain ⟨d, hd, he⟩ := hf
      exact ⟨d, List.mem_reverse.mp (List.mem_of_find?_eq_some hd), he⟩
    · rintro ⟨d, hd, rfl⟩
      exact ⟨(d.type, d.view), mem_of_find (views_find hh ht hd), rfl⟩
  refine ⟨?_, hall, ?_, ?_, ?_⟩
  · intro v hv
    refine ⟨?_, views_find hh ht hv⟩
    have : find s.byName v.view.name = some v.type := by
      refine find_of_mem ?_ ?_
      · rw [hh.byName, List.map_map]; exact hh.vnames
      · rw [hh.byName]; exact List.mem_map_of_mem (f := fun v : ViewDef => (v.view.name, v.type)) hv
    rw [Schematic.viewByName, this]
    exact views_find hh ht hv
  · rw [Schematic.allViews, List.map_map]
    have hkeys := hh.viewKeys
    rw [List.nodup_iff_pairwise_ne, List.pairwise_map] at hkeys ⊢
    refine List.Pairwise.imp_of_mem ?_ hkeys
    intro a b ha hb hab he
    have hfa := find_of_mem hh.viewKeys (a := a.1) (x := a.2) ha
    have hfb := find_of_mem hh.viewKeys (a := b.1) (x := b.2) hb
    rw [hh.views, Option.map_eq_some_iff] at hfa hfb
    obtain ⟨d, hd, hda⟩ := hfa
    obtain ⟨d', hd', hdb⟩ := hfb
    have hdt := List.find?_some hd
    have hdt' := List.find?_some hd'
    simp only [decide_eq_true_eq] at hdt hdt'
    have hm := List.mem_reverse.mp (List.mem_of_find?_eq_some hd)
    have hm' := List.mem_reverse.mp (List.mem_of_find?_eq_some hd')
    have hdd : d = d' := nodup_map_inj hh.vnames hm hm' (by
      show d.view.name = d'.view.name
      rw [hda, hdb]; exact he)
    exact hab (by rw [← hdt, ← hdt', hdd])
  · intro c
    rw [Schematic.viewsIn, hh.byCollection, filterMap_views hh ht _ fun v hv => (List.mem_filter.mp hv).1, List.filter_map]
    rfl
  · intro c
    rw [Schematic.eagerIn, hh.eager,
      filterMap_views hh ht _ fun v hv => (List.mem_filter.mp (List.mem_filter.mp hv).1).1, List.filter_map, List.filter_map,
      List.filter_filter, List.filter_filter]
    congr 1
    congr 1
    funext v
    simp only [Function.comp]
    exact Bool.and_comm _ _

/-! ## The schema of the other models -/

/-- The collections and views of the models of transactions and views (`Store/Model.lean`) come from a schematic. -/
def Schematic.toSchema (s : Schematic) (digest : Bytes → Bytes) (order : List View) : Schema :=
  ⟨digest, s.collections, fun c last => (s.nextId c last).getD none, order⟩

/-- The models of transactions and views, run with the definitions of an accepted schema, see what the schematic
answers; views have different names, as C29 and others assume. -/
theorem C78_schema_partial (calls : List Call) (s : Schematic) (h : fromSchema calls = .ok s)
    (ht : ((viewsOf calls).map (·.type)).Nodup) (digest : Bytes → Bytes) :
    DistinctViews (s.toSchema digest ((viewsOf calls).map (·.view))) ∧
    (∀ c, (s.toSchema digest ((viewsOf calls).map (·.view))).viewsIn c = s.viewsIn c) ∧
    (∀ v, v ∈ (s.toSchema digest ((viewsOf calls).map (·.view))).views ↔ s.viewByName v.name = some v) := by
  have hh := holds_of_ok h
  obtain ⟨h1, h2, h3, h4, h5⟩ := C78_views_partial calls s h ht
  refine ⟨?_, fun c => (h4 c).symm, ?_⟩
  · have := hh.vnames
    rw [DistinctViews]
    show (((viewsOf calls).map (·.view)).map (·.name)).Nodup
    rw [List.map_map]; exact this
  · intro v
    show v ∈ (viewsOf calls).map (·.view) ↔ _
    constructor
    · intro hv
      obtain ⟨d, hd, rfl⟩ := List.mem_map.mp hv
      exact (h1 d hd).1
    · intro hv
      by_cases hn : v.name ∈ (viewsOf calls).map (·.view.name)
      · obtain ⟨d, hd, he⟩ := List.mem_map.mp hn
        have := (h1 d hd).1
        have he : d.view.name = v.name := he
        rw [he, hv] at this
        cases this
        exact List.mem_map_of_mem (f := (·.view)) hd
      · rw [(C78_unknown_view calls s h).1 _ hn] at hv; cases hv

/-! ## Cases -/

def exColl (n : String) (t : Nat) : CollDef := ⟨t, ⟨"test", n⟩, none, fun _ => none, 8⟩
def exSecret : CollDef := ⟨3, ⟨"test", "secrets"⟩, some "master", fun _ => some [0], 4⟩
def exViewDef (n : String) (t : Nat) (p : Policy) : ViewDef :=
  ⟨t, ⟨⟨⟨"test", "posts"⟩, n⟩, p, 0, fun _ => some [], fun _ _ => .unimplemented⟩⟩

/-- Two collections, one of them with two views and defining the other. -/
def exCalls : List Call :=
  [.collection (exColl "posts" 1) [.view (exViewDef "by-author" 10 .lazy), .collection exSecret [],
    .view (exViewDef "by-slug" 11 .unique)]]

example : (∃ s, fromSchema exCalls = .ok s) ∧ ((viewsOf exCalls).map (·.type)).Nodup := by
  rw [C78_accepted_iff]; decide

example : (collsOf exCalls).map (·.name.name) = ["posts", "secrets"] ∧
    (viewsOf exCalls).map (·.view.name.name) = ["by-author", "by-slug"] := by decide

/-- A name that is used twice is refused. -/
example : fromSchema (exCalls ++ [.view (exViewDef "by-slug" 12 .lazy)]) =
    .error (.viewAlreadyRegistered ⟨⟨"test", "posts"⟩, "by-slug"⟩) := rfl
example : fromSchema (exCalls ++ [.collection (exColl "secrets" 9) []]) = .error .collectionAlreadyDefined := rfl

/-- **C78 is violated** when a view type is defined twice under different names (its name may depend on the instance):
both definitions are accepted, the first is lost, its name leads to the second view, which its collection lists
twice. -/
theorem C78_violated_same_type_twice :
    ∃ (calls : List Call) (s : Schematic) (v w : ViewDef), fromSchema calls = .ok s ∧ viewsOf calls = [v, w] ∧
      v.view.name ≠ w.view.name ∧ v.view.policy = .unique ∧ w.view.policy = .lazy ∧
      s.viewByName v.view.name = some w.view ∧ s.allViews = [w.view] ∧
      s.viewsIn v.view.name.collection = [w.view, w.view] ∧ s.eagerIn v.view.name.collection = [w.view] :=
  ⟨[.collection (exColl "posts" 1) [.view (exViewDef "by-slug" 10 .unique), .view (exViewDef "by-author" 10 .lazy)]],
    _, exViewDef "by-slug" 10 .unique, exViewDef "by-author" 10 .lazy, rfl, rfl, by decide, rfl, rfl, rfl, rfl, rfl, rfl⟩

/-- A view of a collection that no call defines is accepted. -/
theorem C78_violated_view_without_collection :
    ∃ (calls : List Call) (s : Schematic) (v : View), fromSchema calls = .ok s ∧ s.viewByName v.name = some v ∧
      v ∈ s.viewsIn v.name.collection ∧ v.name.collection ∉ s.collections :=
  ⟨[.view (exViewDef "by-slug" 10 .unique)], _, (exViewDef "by-slug" 10 .unique).view, rfl, rfl, by
    show _ ∈ [(exViewDef "by-slug" 10 .unique).view]
    simp, by decide⟩

end Bonsai.Schm
