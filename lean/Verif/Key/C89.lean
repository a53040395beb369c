import Verif.Key.Describe

/-!
# C89: key descriptions
-/
set_option linter.unusedSimpArgs false
set_option linter.unusedVariables false

namespace Bonsai.Describe

/-! ## Segments: calls that amount to recording one description -/

/-- The calls `vs`, in any state, do what recording `d` does. -/
def Amounts (vs : List Visit) (d : Desc) : Prop :=
  ∀ (s : Describer) (rest : List Visit), visits s (vs ++ rest) = (record s.stack s.result d).bind fun s => visits s rest

theorem visits_append (s : Describer) (a b : List Visit) : visits s (a ++ b) = (visits s a).bind fun s => visits s b := by
  induction a generalizing s with
  | nil => rfl
  | cons v a ih =>
    simp only [List.cons_append, visits]
    cases visit s v with
    | none => rfl
    | some s' => simp [ih]

/-- Segments that fill a part whose capacity is what it has and will get. -/
theorem fill (k : CKind) (attrs : List (String × AttrValue)) (segs : List (List Visit × Desc))
    (hseg : ∀ g ∈ segs, Amounts g.1 g.2) (hne : segs ≠ []) (acc : List Desc) (stack : List Part) (r : Option Desc)
    (rest : List Visit) :
    visits ⟨⟨k, acc.length + segs.length, acc, attrs⟩ :: stack, r⟩ (segs.flatMap (·.1) ++ rest)
      = (record stack r (.composite k (acc ++ segs.map (·.2)) attrs)).bind fun s => visits s rest := by
  induction segs generalizing acc with
  | nil => exact absurd rfl hne
  | cons g segs ih =>
    have hg := hseg g (by simp)
    rw [List.flatMap_cons, List.append_assoc, hg]
    by_cases he : segs = []
    · subst he
      simp [record, pushCapacity]
    · have h1 : segs.length ≠ 0 := by simpa using he
      have hr : record (⟨k, acc.length + (g :: segs).length, acc, attrs⟩ :: stack) r g.2
          = some ⟨⟨k, (acc ++ [g.2]).length + segs.length, acc ++ [g.2], attrs⟩ :: stack, r⟩ := by
        have e1 : ¬ (acc.length = acc.length + 1 + segs.length) := by omega
        have e3 : acc.length + (segs.length + 1) = acc.length + 1 + segs.length := by omega
        simp only [record, pushCapacity, List.length_cons, List.length_append, List.length_nil, Nat.zero_add, e3,
          if_neg e1]
        rw [if_neg (by omega)]
      rw [hr]
      have := ih (fun g' h => hseg g' (by simp [h])) he (acc ++ [g.2])
      simp only [Option.bind_some]
      rw [this]
      simp

/-- Segments that do not fill a part. -/
theorem underfill (k : CKind) (attrs : List (String × AttrValue)) (segs : List (List Visit × Desc))
    (hseg : ∀ g ∈ segs, Amounts g.1 g.2) (cap : Nat) (acc : List Desc) (hcap : acc.length + segs.length < cap)
    (stack : List Part) (r : Option Desc) :
    visits ⟨⟨k, cap, acc, attrs⟩ :: stack, r⟩ (segs.flatMap (·.1))
      = some ⟨⟨k, cap, acc ++ segs.map (·.2), attrs⟩ :: stack, r⟩ := by
  induction segs generalizing acc with
  | nil => simp [visits]
  | cons g segs ih =>
    have hg := hseg g (by simp)
    simp only [List.length_cons] at hcap
    have hr : record (⟨k, cap, acc, attrs⟩ :: stack) r g.2 = some ⟨⟨k, cap, acc ++ [g.2], attrs⟩ :: stack, r⟩ := by
      have e1 : ¬ (acc.length = cap) := by omega
      have e2 : ¬ (acc.length + 1 = cap) := by omega
      simp [record, pushCapacity, e1, e2]
    rw [List.flatMap_cons, hg, hr]
    simp only [Option.bind_some]
    rw [ih (fun g' h => hseg g' (by simp [h])) (acc ++ [g.2]) (by simp; omega)]
    simp

/-- The segments of the fields. -/
def segs (fs : List KTy) : List (List Visit × Desc) := fs.map fun t => (t.describe, t.shape)

/-- The segments of the variants. -/
def variantSegs : List Variant → List (List Visit × Desc)
  | [] => []
  | .unit :: vs => ([.type .unit], .basic .unit) :: variantSegs vs
  | .fields fs :: vs => segs fs ++ variantSegs vs

theorem segs_visits (fs : List KTy) : (segs fs).flatMap (·.1) = describeAll fs := by
  induction fs with
  | nil => simp [segs, describeAll]
  | cons t fs ih => simp only [segs, List.map_cons, List.flatMap_cons, describeAll] at ih ⊢; rw [ih]

theorem segs_shapes (fs : List KTy) : (segs fs).map (·.2) = shapes fs := by
  induction fs with
  | nil => simp [segs, shapes]
  | cons t fs ih => simp only [segs, List.map_cons, shapes] at ih ⊢; rw [ih]

theorem shapes_length (fs : List KTy) : (shapes fs).length = fs.length := by
  rw [← segs_shapes]; simp [segs]

theorem variantSegs_visits (vs : List Variant) : (variantSegs vs).flatMap (·.1) = describeVariants vs := by
  induction vs with
  | nil => simp [variantSegs, describeVariants]
  | cons v vs ih =>
    cases v with
    | unit => simp [variantSegs, describeVariants, Variant.describe, ih]
    | fields fs => simp [variantSegs, describeVariants, Variant.describe, ih, segs_visits, List.flatMap_append]

theorem variantSegs_shapes (vs : List Variant) : (variantSegs vs).map (·.2) = variantShapes vs := by
  induction vs with
  | nil => simp [variantSegs, variantShapes]
  | cons v vs ih =>
    cases v with
    | unit => simp [variantSegs, variantShapes, ih]
    | fields fs => simp [variantSegs, variantShapes, ih, segs_shapes]

theorem amounts_basic (k : Kind) : Amounts [.type k] (.basic k) := by
  intro s rest; simp [visits, visit]

theorem amounts_other (n : String) : Amounts [.other n] (.other n) := by
  intro s rest; simp [visits, visit]

/-- A composite of at least one segment amounts to one description. -/
theorem amounts_composite (k : CKind) (l : List (List Visit × Desc)) (hl : ∀ g ∈ l, Amounts g.1 g.2) (hne : l ≠ []) :
    Amounts (.composite k l.length :: l.flatMap (·.1)) (.composite k (l.map (·.2)) []) := by
  intro s rest
  have := fill k [] l hl hne [] s.stack s.result rest
  simp only [List.length_nil, Nat.zero_add, List.nil_append] at this
  simp only [List.cons_append, visits, visit, Option.bind_some]
  exact this

theorem setAttr_new (m : List (String × AttrValue)) (k : String) (v : AttrValue) (h : k ∉ m.map (·.1)) :
    setAttr m k v = m ++ [(k, v)] := by
  have : m.filter (fun p => p.1 ≠ k) = m := by
    apply List.filter_eq_self.2
    intro p hp
    have : p.1 ≠ k := fun e => h (e ▸ List.mem_map_of_mem hp)
    simp [this]
  rw [setAttr, this]

theorem visits_attrs (k : CKind) (cap : Nat) (fields : List Desc) (stack : List Part) (r : Option Desc)
    (attrs done : List (String × AttrValue)) (h : ((done ++ attrs).map (·.1)).Nodup) (rest : List Visit) :
    visits ⟨⟨k, cap, fields, done⟩ :: stack, r⟩ ((attrs.map fun a => Visit.attribute a.1 a.2) ++ rest)
      = visits ⟨⟨k, cap, fields, done ++ attrs⟩ :: stack, r⟩ rest := by
  induction attrs generalizing done with
  | nil => simp
  | cons a attrs ih =>
    have hn : a.1 ∉ done.map (·.1) := by
      intro hm
      rw [List.map_append, List.nodup_append] at h
      exact h.2.2 _ hm a.1 (by simp) rfl
    simp only [List.map_cons, List.cons_append, visits, visit, Option.bind_some]
    rw [setAttr_new _ _ _ hn]
    have := ih (done ++ [(a.1, a.2)]) (by simpa using h)
    simpa using this

theorem struct_cons2 (n : String) (a b : KTy) (l : List KTy) :
    (KTy.struct n (a :: b :: l)).shape = .composite (.struct n) (shapes (a :: b :: l)) [] := by
  simp [KTy.shape, shapes]

mutual
theorem describe_amounts : ∀ (t : KTy), t.Balanced → Amounts t.describe t.shape
  | .basic k, _ => by simpa [KTy.describe, KTy.shape] using amounts_basic k
  | .other n, _ => by simpa [KTy.describe, KTy.shape] using amounts_other n
  | .tuple fs, h => by
    simp only [KTy.Balanced] at h
    have hs := list_amounts fs h.2
    have hne : segs fs ≠ [] := by simpa [segs] using h.1
    have := amounts_composite .tuple (segs fs) hs hne
    rw [segs_visits, segs_shapes] at this
    simpa [KTy.describe, KTy.shape, segs] using this
  | .option t, h => by
    simp only [KTy.Balanced] at h
    have := amounts_composite .option [(t.describe, t.shape)] (by simpa using describe_amounts t h) (by simp)
    simpa [KTy.describe, KTy.shape] using this
  | .result t e, h => by
    simp only [KTy.Balanced] at h
    have := amounts_composite .result [(t.describe, t.shape), (e.describe, e.shape)]
      (by simpa using ⟨describe_amounts t h.1, describe_amounts e h.2⟩) (by simp)
    simpa [KTy.describe, KTy.shape] using this
  | .wrapper n attrs t, h => by
    simp only [KTy.Balanced] at h
    intro s rest
    simp only [KTy.describe, KTy.shape, List.cons_append, visits, visit, Option.bind_some, List.append_assoc]
    rw [visits_attrs _ _ _ _ _ attrs [] (by simpa using h.1)]
    have := fill (.struct n) attrs [(t.describe, t.shape)] (by simpa using describe_amounts t h.2) (by simp) []
      s.stack s.result rest
    simpa using this
  | .struct n [], h => by simp [KTy.Balanced] at h
  | .struct n [t], h => by
    simp only [KTy.Balanced, AllBalanced] at h
    have := describe_amounts t h.2.1
    simpa [KTy.describe, KTy.shape, shapes, describeAll] using this
  | .struct n (a :: b :: l), h => by
    simp only [KTy.Balanced] at h
    have hs := list_amounts (a :: b :: l) h.2
    have := amounts_composite (.struct n) (segs (a :: b :: l)) hs (by simp [segs])
    rw [segs_visits, segs_shapes] at this
    rw [struct_cons2]
    simpa [KTy.describe, segs] using this
  | .unitStruct, _ => by simpa [KTy.describe, KTy.shape] using amounts_basic .unit
  | .enum repr vs, h => by
    by_cases he : vs.all Variant.isEmpty = true
    · simpa only [KTy.describe, KTy.shape, he, if_true] using amounts_basic repr
    · simp only [KTy.Balanced] at h
      have h' := h.resolve_left he
      have hs := variants_amounts vs h'.1
      have hlen : (variantSegs vs).length = vs.length := by
        rw [← h'.2, ← variantSegs_shapes, List.length_map]
      have hne : variantSegs vs ≠ [] := by
        intro e
        rw [e] at hlen
        have : vs = [] := List.eq_nil_of_length_eq_zero hlen.symm
        subst this
        exact he rfl
      have := amounts_composite .tuple (variantSegs vs) hs hne
      rw [variantSegs_visits, variantSegs_shapes, hlen] at this
      rw [KTy.describe, KTy.shape, if_neg he, if_neg he]
      exact this

theorem list_amounts : ∀ (fs : List KTy), AllBalanced fs → ∀ g ∈ segs fs, Amounts g.1 g.2
  | [], _ => by simp [segs]
  | t :: ts, h => by
    simp only [AllBalanced] at h
    intro g hg
    simp only [segs, List.map_cons, List.mem_cons] at hg
    rcases hg with rfl | hg
    · exact describe_amounts t h.1
    · exact list_amounts ts h.2 g hg

theorem variants_amounts : ∀ (vs : List Variant), AllVariants vs → ∀ g ∈ variantSegs vs, Amounts g.1 g.2
  | [], _ => by simp [variantSegs]
  | .unit :: vs, h => by
    simp only [AllVariants] at h
    intro g hg
    simp only [variantSegs, List.mem_cons] at hg
    rcases hg with rfl | hg
    · exact amounts_basic .unit
    · exact variants_amounts vs h g hg
  | .fields fs :: vs, h => by
    simp only [AllVariants] at h
    intro g hg
    simp only [variantSegs, List.mem_append] at hg
    rcases hg with hg | hg
    · exact list_amounts fs h.1 g hg
    · exact variants_amounts vs h.2 g hg
end

/-! ## The theorems -/

/-- **C89 (partial: the types without an empty derived struct and whose enums with data have as many fields as
variants).** `KeyDescription::for_key` does not panic and returns the structure of the type. -/
theorem C89_described_partial (typeName : String) (t : KTy) (h : t.Balanced) : forKey typeName t = some t.shape := by
  have := describe_amounts t h .new []
  rw [List.append_nil] at this
  rw [forKey, forVisits, this]
  simp [Describer.new, record, visits, finishFor]

/-- **C89 (exactly when an enum key can be described).** For an enum with data whose fields can be described,
`for_key` panics unless there are exactly as many fields, counting one for each unit variant, as variants. -/
theorem C89_enum_iff (typeName : String) (repr : Kind) (vs : List Variant) (hv : AllVariants vs)
    (hdata : ¬ vs.all Variant.isEmpty = true) :
    forKey typeName (.enum repr vs) ≠ none ↔ (variantShapes vs).length = vs.length := by
  have hpos : vs.length ≠ 0 := by
    intro e
    rw [List.eq_nil_of_length_eq_zero e] at hdata
    exact hdata rfl
  have hs := variants_amounts vs hv
  have hlen : (variantShapes vs).length = (variantSegs vs).length := by rw [← variantSegs_shapes, List.length_map]
  constructor
  · intro hok
    refine Classical.byContradiction fun hne => ?_
    apply hok
    have hd : KTy.describe (.enum repr vs) = .composite .tuple vs.length :: describeVariants vs := by
      simp only [KTy.describe]
      rw [if_neg hdata]
    rw [forKey, forVisits, hd, ← variantSegs_visits]
    simp only [visits, visit, Option.bind_some]
    by_cases hlt : (variantSegs vs).length < vs.length
    · rw [underfill .tuple [] (variantSegs vs) hs vs.length [] (by simpa using hlt)]
      simp [finishFor]
    · have hgt : vs.length < (variantSegs vs).length := by omega
      -- the first `vs.length` segments fill the composite, the next one is too much
      generalize hl : variantSegs vs = l at hs hgt
      have hsplit : l = l.take vs.length ++ l.drop vs.length := (List.take_append_drop _ _).symm
      have ht : ∀ g ∈ l.take vs.length, Amounts g.1 g.2 := fun g hg => hs g (List.mem_of_mem_take hg)
      have htl : (l.take vs.length).length = vs.length := by simp; omega
      have htne : l.take vs.length ≠ [] := by
        intro e; rw [e] at htl; exact hpos htl.symm
      have hdne : l.drop vs.length ≠ [] := by
        intro e
        have : (l.drop vs.length).length = 0 := by rw [e]; rfl
        simp at this; omega
      obtain ⟨g, more, hg⟩ := List.exists_cons_of_ne_nil hdne
      have hga : Amounts g.1 g.2 := hs g (List.mem_of_mem_drop (by rw [hg]; simp))
      rw [hsplit, List.flatMap_append, hg, List.flatMap_cons]
      have := fill .tuple [] (l.take vs.length) ht htne [] [] none (g.1 ++ more.flatMap (·.1))
      simp only [List.length_nil, Nat.zero_add, htl] at this
      simp only [Describer.new]
      rw [this]
      simp only [record, Option.bind_some]
      rw [hga]
      simp [record]
  · intro he hn
    have hb : (KTy.enum repr vs).Balanced := by
      simp only [KTy.Balanced]; exact Or.inr ⟨hv, he⟩
    rw [C89_described_partial typeName _ hb] at hn
    cases hn

/-- **C89 (violated: a variant with two fields).** `enum K { A(u32), B(u32, u32) }` as a key: describing it panics, so a
collection with this primary key cannot be added to a schema, and a schema with a view of this key cannot be listed. -/
theorem C89_violated_two_fields :
    forKey "K" (.enum .u8 [.fields [.basic .u32], .fields [.basic .u32, .basic .u32]]) = none := rfl

/-- **C89 (violated: a variant with empty braces).** `enum K { A {}, B(u32) }`. -/
theorem C89_violated_empty_variant :
    forKey "K" (.enum .u8 [.fields [], .fields [.basic .u32]]) = none := rfl

/-- **C89 (violated: every empty struct).** `struct S {}` with a derived key cannot be described, whatever its name. -/
theorem C89_violated_empty_struct (typeName n : String) : forKey typeName (.struct n []) = none := rfl

/-- **C89 (violated: the description of an enum).** An enum with data is described like a tuple of the fields of its
variants: the discriminant that is encoded first is not mentioned, and two enums that differ in its width have the same
description. -/
theorem C89_violated_discriminant (a b : Kind) (r r' : Kind) :
    forKey "K" (.enum r [.fields [.basic a], .fields [.basic b]]) = forKey "K" (.enum r' [.fields [.basic a], .fields [.basic b]])
    ∧ forKey "K" (.enum r [.fields [.basic a], .fields [.basic b]]) = forKey "T" (.tuple [.basic a, .basic b]) := ⟨rfl, rfl⟩

/-- A type that describes nothing is reported by its name (key.rs:483-484). -/
theorem C89_silent (typeName : String) : forVisits typeName [] = some (.other typeName) := rfl

/-! ## Types that meet the hypotheses -/

/-- `(Option<String>, Result<u64, i8>, SystemTime)` inside a derived struct with a `LimitedResolutionTimestamp` and a
one-field struct. -/
def exTy : KTy :=
  .struct "app.Id"
    [.tuple [.option (.basic .string), .result (.basic .u64) (.basic .i8),
        .wrapper "std::time::SystemTime" [] (.basic .unsigned)],
     .wrapper "bonsaidb::core::key::time::LimitedResolutionTimestamp" [("epoch", .int 1640995200000000000)] (.basic .i64),
     .struct "app.Name" [.basic .string],
     .enum .u8 [.unit, .fields [.basic .u32], .fields [.option .unitStruct]],
     .enum .i16 [.unit, .unit]]

theorem exTy_balanced : exTy.Balanced := by
  simp [exTy, KTy.Balanced, AllBalanced, AllVariants, variantShapes, shapes, Variant.isEmpty]

example : forKey "app.Id" exTy = some (.composite (.struct "app.Id")
    [.composite .tuple [.composite .option [.basic .string] [], .composite .result [.basic .u64, .basic .i8] [],
        .composite (.struct "std::time::SystemTime") [.basic .unsigned] []] [],
     .composite (.struct "bonsaidb::core::key::time::LimitedResolutionTimestamp") [.basic .i64]
       [("epoch", .int 1640995200000000000)],
     .basic .string,
     .composite .tuple [.basic .unit, .basic .u32, .composite .option [.basic .unit] []] [],
     .basic .i16] []) := by
  rw [C89_described_partial _ _ exTy_balanced]
  simp [exTy, KTy.shape, shapes, variantShapes, Variant.isEmpty]

example : AllVariants [.fields [.basic .u32], .fields [.basic .u32, .basic .u32]]
    ∧ ¬ ([Variant.fields [.basic .u32], .fields [.basic .u32, .basic .u32]].all Variant.isEmpty = true) := by
  simp [AllVariants, AllBalanced, KTy.Balanced, Variant.isEmpty]

end Bonsai.Describe
