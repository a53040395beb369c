import Verif.Schema.Summary
import Verif.Schema.C78
import Verif.Key.C89

/-!
# C90: listing the schemas
-/
set_option linter.unusedSimpArgs false
set_option linter.unusedVariables false

namespace Bonsai.Schm
open Bonsai Bonsai.Names Bonsai.Store

variable {K : Type}

/-! ## One collection -/

theorem addViews_ok (kd : View → Option K) (l : List View) (hkd : ∀ v ∈ l, kd v ≠ none)
    (hn : (l.map (·.name)).Nodup) (m : List (VName × ViewSummary K)) (hm : ∀ v ∈ l, find m v.name = none) :
    ∃ m', addViews kd l m = some m' ∧
      (∀ v ∈ l, ∃ k, kd v = some k ∧ find m' v.name = some ⟨v.name, k, v.policy, v.version⟩) ∧
      (∀ n, n ∉ l.map (·.name) → find m' n = find m n) := by
  induction l generalizing m with
  | nil => exact ⟨m, rfl, by simp, fun _ _ => rfl⟩
  | cons v l ih =>
    obtain ⟨k, hk⟩ := Option.ne_none_iff_exists'.mp (hkd v (by simp))
    rw [List.map_cons, List.nodup_cons] at hn
    obtain ⟨m', h1, h2, h3⟩ := ih (fun w hw => hkd w (by simp [hw])) hn.2 (put m v.name ⟨v.name, k, v.policy, v.version⟩) (by
      intro w hw
      rw [find_put, if_neg]
      · exact hm w (by simp [hw])
      · intro e
        exact hn.1 (e ▸ List.mem_map_of_mem (f := fun v : View => v.name) hw))
    refine ⟨m', by simp [addViews, hk, h1], ?_, ?_⟩
    · intro w hw
      rcases List.mem_cons.mp hw with rfl | hw
      · exact ⟨k, hk, by rw [h3 _ hn.1, find_put, if_pos rfl]⟩
      · exact h2 w hw
    · intro n hn'
      simp only [List.map_cons, List.mem_cons, not_or] at hn'
      rw [h3 n hn'.2, find_put, if_neg hn'.1]

theorem addViews_none (kd : View → Option K) (l : List View) (h : ∃ v ∈ l, kd v = none) (m : List (VName × ViewSummary K)) :
    addViews kd l m = none := by
  induction l generalizing m with
  | nil => obtain ⟨v, hv, _⟩ := h; cases hv
  | cons w l ih =>
    simp only [addViews]
    cases hw : kd w with
    | none => rfl
    | some k =>
      obtain ⟨v, hv, hn⟩ := h
      rcases List.mem_cons.mp hv with rfl | hv
      · rw [hw] at hn; cases hn
      · exact ih ⟨v, hv, hn⟩ _

/-! ## All collections -/

theorem addCollections_ok (s : Schematic) (kd : View → Option K) (cs : List QName) (hn : cs.Nodup)
    (hd : ∀ c ∈ cs, ∃ d, s.description c = some d) (hv : ∀ c ∈ cs, ((s.viewsIn c).map (·.name)).Nodup)
    (hkd : ∀ c ∈ cs, ∀ v ∈ s.viewsIn c, kd v ≠ none)
    (m : List (QName × CollSummary K)) (hm : ∀ c ∈ cs, find m c = none) :
    ∃ m', addCollections s kd cs m = some m' ∧ m'.map (·.1) = m.map (·.1) ++ cs ∧
      (∀ c ∈ cs, ∃ d vs, s.description c = some d ∧ addViews kd (s.viewsIn c) [] = some vs ∧ find m' c = some ⟨c, d, vs⟩) ∧
      (∀ c, c ∉ cs → find m' c = find m c) := by
  induction cs generalizing m with
  | nil => exact ⟨m, rfl, by simp, by simp, fun _ _ => rfl⟩
  | cons c cs ih =>
    obtain ⟨d, hdc⟩ := hd c (by simp)
    have hmc := hm c (by simp)
    obtain ⟨vs, hvs, _⟩ := addViews_ok kd (s.viewsIn c) (hkd c (by simp)) (hv c (by simp)) [] (fun _ _ => rfl)
    rw [List.nodup_cons] at hn
    obtain ⟨m', h1, h2, h3, h4⟩ := ih hn.2 (fun a ha => hd a (by simp [ha])) (fun a ha => hv a (by simp [ha]))
      (fun a ha => hkd a (by simp [ha])) (put m c ⟨c, d, vs⟩) (by
        intro a ha
        rw [find_put, if_neg]
        · exact hm a (by simp [ha])
        · exact fun e => hn.1 (e ▸ ha))
    refine ⟨m', by simp [addCollections, entryFor, hmc, hdc, hvs, h1], ?_, ?_, ?_⟩
    · rw [h2, put_new _ _ _ hmc]; simp
    · intro a ha
      rcases List.mem_cons.mp ha with rfl | ha
      · exact ⟨d, vs, hdc, hvs, by rw [h4 _ hn.1, find_put, if_pos rfl]⟩
      · exact h3 a ha
    · intro a ha
      simp only [List.mem_cons, not_or] at ha
      rw [h4 a ha.2, find_put, if_neg ha.1]

theorem addCollections_none (s : Schematic) (kd : View → Option K) (cs : List QName)
    (h : ∃ c ∈ cs, ∃ v ∈ s.viewsIn c, kd v = none) (m : List (QName × CollSummary K)) : addCollections s kd cs m = none := by
  induction cs generalizing m with
  | nil => obtain ⟨c, hc, _⟩ := h; cases hc
  | cons a cs ih =>
    simp only [addCollections]
    cases he : entryFor s m a with
    | none => rfl
    | some e =>
      simp only [Option.bind_some]
      cases hv : addViews kd (s.viewsIn a) e.views with
      | none => rfl
      | some vs =>
        simp only [Option.bind_some]
        obtain ⟨c, hc, w, hw, hn⟩ := h
        rcases List.mem_cons.mp hc with rfl | hc
        · rw [addViews_none kd _ ⟨w, hw, hn⟩] at hv; cases hv
        · exact ih ⟨c, hc, w, hw, hn⟩ _

/-! ## The theorems -/

/-- **C90 (partial: the views have different types, and their keys can be described).** The summary of an accepted
schema has exactly the collections that were defined, each with the description of its primary key and exactly the views
that were defined for it, each with the description of its key, its policy and its version. -/
theorem C90_summary_partial (kd : View → Option K) (name : QName) (calls : List Call) (s : Schematic)
    (h : fromSchema calls = .ok s) (ht : ((viewsOf calls).map (·.type)).Nodup)
    (hkd : ∀ v ∈ viewsOf calls, kd v.view ≠ none) :
    ∃ x, summarize kd name s = some x ∧ x.name = name ∧
      x.collections.map (·.1) = (collsOf calls).map (·.name) ∧
      (∀ n, x.collection n ≠ none ↔ ∃ c ∈ collsOf calls, c.name = n) ∧
      (∀ c ∈ collsOf calls, ∃ e, x.collection c.name = some e ∧ e.name = c.name ∧ e.primaryKey = c.description ∧
        (∀ v ∈ viewsOf calls, v.view.name.collection = c.name →
          ∃ k, kd v.view = some k ∧ e.view v.view.name = some ⟨v.view.name, k, v.view.policy, v.view.version⟩) ∧
        (∀ n, e.view n ≠ none → ∃ v ∈ viewsOf calls, v.view.name = n ∧ n.collection = c.name)) := by
  have hh := holds_of_ok h
  obtain ⟨hc1, _, hc3, _⟩ := C78_collections calls s h
  obtain ⟨_, _, _, hv4, _⟩ := C78_views_partial calls s h ht
  have hvn : ∀ c, ((s.viewsIn c).map (·.name)).Nodup := by
    intro c
    rw [hv4 c]
    refine List.Nodup.sublist (List.filter_sublist.map _) ?_
    have := hh.vnames
    rw [List.map_map]
    exact this
  have hmem : ∀ c v, v ∈ s.viewsIn c ↔ ∃ d ∈ viewsOf calls, d.view = v ∧ v.name.collection = c := by
    intro c v
    rw [hv4 c]
    simp only [List.mem_filter, List.mem_map, decide_eq_true_eq]
    constructor
    · rintro ⟨⟨d, hd, rfl⟩, he⟩; exact ⟨d, hd, rfl, he⟩
    · rintro ⟨d, hd, rfl, he⟩; exact ⟨⟨d, hd, rfl⟩, he⟩
  have hk : ∀ c, ∀ v ∈ s.viewsIn c, kd v ≠ none := by
    intro c v hv
    obtain ⟨d, hd, rfl, _⟩ := (hmem c v).mp hv
    exact hkd d hd
  have hdesc : ∀ c ∈ s.collections, ∃ d, s.description c = some d := by
    intro c hc
    rw [hc1, List.mem_map] at hc
    obtain ⟨d, hd, rfl⟩ := hc
    exact ⟨_, (hc3 d hd).1⟩
  obtain ⟨m, h1, h2, h3, h4⟩ := addCollections_ok s kd s.collections (by rw [hc1]; exact hh.cnames) hdesc
    (fun c _ => hvn c) (fun c _ => hk c) [] (fun _ _ => rfl)
  simp only [List.map_nil, List.nil_append] at h2
  refine ⟨⟨name, m⟩, by rw [summarize, h1]; rfl, rfl, by rw [← hc1]; exact h2, ?_, ?_⟩
  · intro n
    show find m n ≠ none ↔ _
    rw [ne_eq, find_none_iff, h2, hc1]
    simp
  · intro c hc
    have hcm : c.name ∈ s.collections := by rw [hc1]; exact List.mem_map_of_mem hc
    obtain ⟨d, vs, hd, hvs, hf⟩ := h3 c.name hcm
    have hd' : d = c.description := by
      have := (hc3 c hc).1
      rw [hd] at this
      exact Option.some.inj this
    obtain ⟨vs', hvs', ha, hb⟩ := addViews_ok kd (s.viewsIn c.name) (hk c.name) (hvn c.name) [] (fun _ _ => rfl)
    rw [hvs] at hvs'
    cases hvs'
    refine ⟨⟨c.name, d, vs⟩, hf, rfl, hd', ?_, ?_⟩
    · intro v hv he
      exact ha v.view ((hmem c.name v.view).mpr ⟨v, hv, rfl, he⟩)
    · intro n hn
      by_cases hnm : n ∈ (s.viewsIn c.name).map (·.name)
      · obtain ⟨w, hw, rfl⟩ := List.mem_map.mp hnm
        obtain ⟨v, hv, rfl, he⟩ := (hmem c.name w).mp hw
        exact ⟨v, hv, rfl, he⟩
      · exact absurd (hb n hnm) hn

/-- **C90 (what a key that cannot be described does).** If describing the key of a view of one of the collections
panics (C89), so does the summary of the whole schema. -/
theorem C90_panic (kd : View → Option K) (name : QName) (calls : List Call) (s : Schematic)
    (h : fromSchema calls = .ok s) (ht : ((viewsOf calls).map (·.type)).Nodup) (v : ViewDef) (hv : v ∈ viewsOf calls)
    (hc : ∃ c ∈ collsOf calls, c.name = v.view.name.collection) (hkd : kd v.view = none) : summarize kd name s = none := by
  obtain ⟨hc1, _, _, _⟩ := C78_collections calls s h
  obtain ⟨_, _, _, hv4, _⟩ := C78_views_partial calls s h ht
  obtain ⟨c, hcm, hcn⟩ := hc
  rw [summarize, addCollections_none]
  · rfl
  · refine ⟨c.name, by rw [hc1]; exact List.mem_map_of_mem hcm, v.view, ?_, hkd⟩
    rw [hv4]
    simp only [List.mem_filter, List.mem_map, decide_eq_true_eq]
    exact ⟨⟨v, hv, rfl⟩, hcn.symm⟩

theorem mem_unique (l : List QName) (a : QName) : a ∈ unique l ↔ a ∈ l := by
  induction l with
  | nil => rfl
  | cons b l ih =>
    simp only [unique, List.mem_cons, List.mem_filter, ih, decide_eq_true_eq]
    by_cases h : a = b
    · simp [h]
    · simp [h]

theorem unique_nodup (l : List QName) : (unique l).Nodup := by
  induction l with
  | nil => exact List.nodup_nil
  | cons b l ih =>
    rw [unique, List.nodup_cons]
    exact ⟨by simp, ih.sublist List.filter_sublist⟩

theorem summarizeAll_spec (kd : View → Option K) (schemas : List (QName × Schematic)) (ns : List QName)
    (xs : List (SchemaSummary K)) (h : summarizeAll kd schemas ns = some xs) :
    xs.map (·.name) = ns.filter (fun n => (find schemas n).isSome) ∧
    ∀ x ∈ xs, ∃ s, find schemas x.name = some s ∧ summarize kd x.name s = some x := by
  induction ns generalizing xs with
  | nil => cases h; exact ⟨rfl, by simp⟩
  | cons n ns ih =>
    simp only [summarizeAll] at h
    cases hf : find schemas n with
    | none =>
      rw [hf] at h
      obtain ⟨h1, h2⟩ := ih xs h
      exact ⟨by rw [h1]; simp [hf], h2⟩
    | some s =>
      rw [hf] at h
      simp only [Option.bind_eq_some_iff, Option.map_eq_some_iff] at h
      obtain ⟨x, hx, ys, hys, rfl⟩ := h
      obtain ⟨h1, h2⟩ := ih ys hys
      have hxn : x.name = n := by
        rw [summarize, Option.map_eq_some_iff] at hx
        obtain ⟨m, _, rfl⟩ := hx
        rfl
      refine ⟨by simp [h1, hf, hxn], ?_⟩
      intro y hy
      rcases List.mem_cons.mp hy with rfl | hy
      · exact ⟨s, by rw [hxn]; exact hf, by rw [hxn]; exact hx⟩
      · exact h2 y hy

/-- **C90 (partial: the registered schemas that a database uses).** `list_available_schemas` returns one summary for each
registered schema that at least one database has, and nothing else. -/
theorem C90_listed_partial (kd : View → Option K) (available : List (String × QName)) (schemas : List (QName × Schematic))
    (xs : List (SchemaSummary K)) (h : listAvailableSchemas kd available schemas = some xs) :
    (xs.map (·.name)).Nodup ∧
    (∀ n, n ∈ xs.map (·.name) ↔ (∃ db, (db, n) ∈ available) ∧ ∃ s, find schemas n = some s) ∧
    (∀ x ∈ xs, ∃ s, find schemas x.name = some s ∧ summarize kd x.name s = some x) := by
  obtain ⟨h1, h2⟩ := summarizeAll_spec kd schemas _ xs h
  refine ⟨?_, ?_, h2⟩
  · rw [h1]; exact (unique_nodup _).sublist List.filter_sublist
  · intro n
    rw [h1]
    simp only [List.mem_filter, mem_unique, List.mem_map, Prod.exists, exists_eq_right, Option.isSome_iff_exists]

/-! ## Violations and examples -/

def exColl90 : CollDef := ⟨0, ⟨"a", "c"⟩, none, fun _ => none, 7⟩
def exView90 : View := ⟨⟨⟨"a", "c"⟩, "v"⟩, .lazy, 3, fun _ => some [], fun _ _ => .error⟩
def exSchemaCalls : List Call := [.collection exColl90 [.view ⟨1, exView90⟩]]

/-- **C90 (violated: a schema no database uses).** The documentation: "lists the schema names registered with this
storage".  A schema that is registered is not listed as long as no database has it. -/
theorem C90_violated_unused (kd : View → Option K) (n : QName) (s : Schematic) :
    find [(n, s)] n = some s ∧ listAvailableSchemas kd [] [(n, s)] = some [] :=
  ⟨by simp [find], rfl⟩

/-- **C90 (violated: a key that cannot be described).** One view whose key is the enum of
`Describe.C89_violated_two_fields`, and `list_available_schemas` panics: none of the schemas can be listed. -/
theorem C90_violated_panic :
    ∃ s, fromSchema exSchemaCalls = .ok s ∧
      listAvailableSchemas
        (fun _ => Describe.forKey "K" (.enum .u8 [.fields [.basic .u32], .fields [.basic .u32, .basic .u32]]))
        [("db", ⟨"a", "s"⟩)] [(⟨"a", "s"⟩, s)] = none := by
  refine ⟨_, rfl, ?_⟩
  rfl

/-- The hypotheses of `C90_summary_partial` and `C90_listed_partial` on a schema with a collection and a view. -/
example : ∃ s, fromSchema exSchemaCalls = .ok s ∧ ((viewsOf exSchemaCalls).map (·.type)).Nodup ∧
    ∃ x, listAvailableSchemas (fun _ => Describe.forKey "String" (.basic .string))
      [("db", ⟨"a", "s"⟩), ("db2", ⟨"a", "s"⟩)] [(⟨"a", "s"⟩, s)] = some [x] := by
  refine ⟨_, rfl, by simp [exSchemaCalls, viewsOf, Call.viewDefs], _, rfl⟩

end Bonsai.Schm
