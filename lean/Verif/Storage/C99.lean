import Verif.Storage.Registry
/-!
# C99: schemas that a storage knows

A schema that was registered, and no other, is the one by which databases of its name work; a second registration of a name
is refused and changes nothing; the storage lists what is registered.  The last two are violated.
-/
set_option linter.unusedSimpArgs false
set_option linter.unusedVariables false

namespace Bonsai.Registry

/-! ## Specification -/

/-- The types that a storage was given under the name `n`, in order: when it was configured, and later. -/
def given (nameOf : Nat → String) (n : String) (types : List Nat) (ops : List Op) : List Nat :=
  (types ++ ops.filterMap fun o => match o with
    | .register t => some t
    | .create .. => none).filter fun t => nameOf t = n

/-! ## Proofs -/

theorem foldl_insert (nameOf : Nat → String) (n : String) : ∀ (types : List Nat) (m : String → Option Nat),
    (types.foldl (insertTy nameOf) m) n = ((types.filter fun t => nameOf t = n).getLast?).or (m n)
  | [], m => by simp
  | t :: l, m => by
    rw [List.foldl_cons, foldl_insert nameOf n l]
    by_cases h : nameOf t = n
    · subst h
      simp only [insertTy, if_true, List.filter_cons, decide_true]
      cases e : l.filter fun t' => nameOf t' = nameOf t with
      | nil => simp
      | cons x y => simp [List.getLast?_cons]
    · simp [insertTy, List.filter_cons, h, Ne.symm h]

theorem create_schemas (st : St) (n s : String) (o : Bool) (nameOf : Nat → String) :
    (st.apply nameOf (.create n s o)).schemas = st.schemas := by
  simp only [St.apply, St.create]
  split
  · rename_i h
    split at h
    · cases h
    · split at h
      · cases h; rfl
      · split at h
        · cases h; rfl
        · cases h
  · rfl

theorem run_schemas (nameOf : Nat → String) (n : String) : ∀ (ops : List Op) (st : St),
    (st.run nameOf ops).schemas n = ((ops.filterMap fun o => match o with
      | .register t => some t
      | .create .. => none).filter fun t => nameOf t = n).getLast?.or (st.schemas n)
  | [], st => by simp [St.run]
  | o :: ops, st => by
    rw [St.run, List.foldl_cons, ← St.run, run_schemas nameOf n ops]
    cases o with
    | create a b c => rw [create_schemas]; simp
    | register t =>
      simp only [St.apply, St.register, List.filterMap_cons, List.filter_cons]
      by_cases h : nameOf t = n
      · subst h
        simp only [insertTy, if_true, decide_true]
        cases e : (ops.filterMap fun o => match o with
          | .register t => some t
          | .create .. => none).filter fun t' => nameOf t' = nameOf t with
        | nil => simp
        | cons x y => simp [List.getLast?_cons]
      · simp [insertTy, h, Ne.symm h]

theorem openStorage_ok {nameOf : Nat → String} {admin : Nat} {types : List Nat} {stored : List (String × String)} {st : St}
    (h : openStorage nameOf admin types stored = .ok st) :
    st = ⟨configure nameOf (types ++ [admin]), stored⟩ ∧ ∀ t, t ∈ types → nameOf t ≠ nameOf admin := by
  simp only [openStorage, St.register] at h
  split at h
  · rename_i e
    simp only [Prod.mk.injEq] at e
    obtain ⟨e1, e2⟩ := e
    cases h
    refine ⟨by rw [← e2]; simp [configure, List.foldl_append], fun t ht hn => ?_⟩
    have : configure nameOf types (nameOf admin) ≠ none := by
      rw [configure, foldl_insert]
      have hm : t ∈ types.filter fun t' => nameOf t' = nameOf admin := by simp [ht, hn]
      cases g : types.filter fun t' => nameOf t' = nameOf admin with
      | nil => rw [g] at hm; cases hm
      | cons x y => simp [List.getLast?_cons]
    split at e1
    · cases e1
    · rename_i k; simp only [Option.not_isSome_iff_eq_none] at k; exact this k
  · cases h

/-! ## What is registered is used -/

/-- The type used for a name is the last that was given under it. -/
theorem C99_registered (nameOf : Nat → String) (admin : Nat) (types : List Nat) (stored : List (String × String))
    (ops : List Op) (st : St) (h : openStorage nameOf admin types stored = .ok st) (n : String) :
    (st.run nameOf ops).schemas n = (given nameOf n (types ++ [admin]) ops).getLast? := by
  rw [run_schemas, (openStorage_ok h).1]
  dsimp only
  rw [configure, foldl_insert]
  simp only [given, List.filter_append (l₁ := types ++ [admin]), List.getLast?_append, Option.or_none]

/-- A storage opens exactly if no schema was configured under the name of the one for administration. -/
theorem C99_open (nameOf : Nat → String) (admin : Nat) (types : List Nat) (stored : List (String × String)) :
    (∃ st, openStorage nameOf admin types stored = .ok st) ↔ ∀ t, t ∈ types → nameOf t ≠ nameOf admin := by
  constructor
  · rintro ⟨st, h⟩; exact (openStorage_ok h).2
  · intro h
    have : configure nameOf types (nameOf admin) = none := by
      rw [configure, foldl_insert]
      have : types.filter (fun t => nameOf t = nameOf admin) = [] := by
        rw [List.filter_eq_nil_iff]; intro t ht; simpa using h t ht
      simp [this]
    exact ⟨⟨insertTy nameOf (configure nameOf types) admin, stored⟩, by simp [openStorage, St.register, this]⟩

/-- A registration is accepted exactly if its name was not given before, and names that are registered stay. -/
theorem C99_register (nameOf : Nat → String) (admin : Nat) (types : List Nat) (stored : List (String × String))
    (ops : List Op) (st : St) (h : openStorage nameOf admin types stored = .ok st) (t : Nat) :
    (((st.run nameOf ops).register nameOf t).1 = none ↔ given nameOf (nameOf t) (types ++ [admin]) ops = []) ∧
      (((st.run nameOf ops).register nameOf t).1 ≠ none →
        ((st.run nameOf ops).register nameOf t).1 = some (.schemaAlreadyRegistered (nameOf t))) ∧
      ∀ n more, ((st.run nameOf ops).schemas n).isSome → (((st.run nameOf ops).run nameOf more).schemas n).isSome := by
  refine ⟨?_, ?_, ?_⟩
  · simp only [St.register, C99_registered nameOf admin types stored ops st h]
    cases given nameOf (nameOf t) (types ++ [admin]) ops with
    | nil => simp
    | cons x y => simp [List.getLast?_cons]
  · simp only [St.register]
    split <;> simp
  · intro n more hn
    rw [run_schemas]
    cases (List.filterMap _ more |>.filter fun t => decide (nameOf t = n)).getLast? with
    | none => simpa using hn
    | some x => simp

/-- A database opens as a schema exactly if it exists with that schema's name, and that name is registered.  The handle
works by the type registered under the name; that is the type that the caller named, unless another type was given under
that name.  Missing: without that exception, `C99_violated_register`. -/
theorem C99_handle_partial (nameOf : Nat → String) (admin : Nat) (types : List Nat) (stored : List (String × String))
    (ops : List Op) (st : St) (h : openStorage nameOf admin types stored = .ok st) (t : Nat) (name : String) :
    ((∃ u, (st.run nameOf ops).databaseAs nameOf t name = .ok u) ↔
      (st.run nameOf ops).schemaOf name = some (nameOf t) ∧ given nameOf (nameOf t) (types ++ [admin]) ops ≠ []) ∧
    (∀ u, (st.run nameOf ops).databaseAs nameOf t name = .ok u →
      nameOf u = nameOf t ∧ u ∈ given nameOf (nameOf t) (types ++ [admin]) ops ∧
      ((∀ x, x ∈ given nameOf (nameOf t) (types ++ [admin]) ops → x = t) → u = t)) := by
  have hs := C99_registered nameOf admin types stored ops st h (nameOf t)
  have key : ∀ u, (st.run nameOf ops).databaseAs nameOf t name = .ok u ↔
      (st.run nameOf ops).schemaOf name = some (nameOf t) ∧
        (given nameOf (nameOf t) (types ++ [admin]) ops).getLast? = some u := by
    intro u
    rw [← hs]
    simp only [St.databaseAs, St.database]
    cases e : (st.run nameOf ops).schemaOf name with
    | none => simp
    | some s =>
      simp only [ne_eq, reduceCtorEq, not_false_eq_true, Option.some.injEq, true_and]
      by_cases g : nameOf t = s
      · subst g
        simp only [not_true_eq_false, if_false, true_and]
        cases (st.run nameOf ops).schemas (nameOf t) <;> simp
      · simp [g, Ne.symm g]
  refine ⟨?_, ?_⟩
  · simp only [key, exists_and_left]
    refine and_congr_right fun _ => ?_
    cases given nameOf (nameOf t) (types ++ [admin]) ops with
    | nil => simp
    | cons x y => simp [List.getLast?_cons]
  · intro u hu
    have hm := List.mem_of_getLast? ((key u).1 hu).2
    refine ⟨?_, hm, fun g => g u hm⟩
    simp only [given, List.mem_filter, decide_eq_true_eq] at hm
    exact hm.2

/-- A database that was created opens as the schema that it was created with, and keeps it whatever happens; creating it
again with another is refused, or does nothing if that was asked for. -/
theorem C99_created (nameOf : Nat → String) (st st' : St) (name schema : String) (o : Bool)
    (h : st.create name schema o = .ok st') :
    (∃ s, st'.schemaOf name = some s ∧ (s = schema ∨ st.schemaOf name = some s ∧ o = true)) ∧
      (st.schemaOf name = none → st'.schemaOf name = some schema ∧ ∃ u, st'.database name (some schema) = .ok u) ∧
      ∀ ops s, st'.schemaOf name = some s → (st'.run nameOf ops).schemaOf name = some s := by
  have keep : ∀ (ops : List Op) (σ : St) s, σ.schemaOf name = some s → (σ.run nameOf ops).schemaOf name = some s := by
    intro ops
    induction ops with
    | nil => intro σ s hs; exact hs
    | cons op ops ih =>
      intro σ s hs
      refine ih _ s ?_
      cases op with
      | register t => exact hs
      | create n m o =>
        simp only [St.apply, St.create]
        split
        · rename_i g
          split at g
          · cases g
          · split at g
            · rename_i k
              cases g
              have : n ≠ name := by
                rintro rfl
                rw [hs] at k
                cases k
              simpa [St.schemaOf, this] using hs
            · split at g
              · cases g; exact hs
              · cases g
        · exact hs
  refine ⟨?_, ?_, fun ops s hs => keep ops st' s hs⟩
  · simp only [St.create] at h
    split at h
    · cases h
    · split at h
      · cases h; exact ⟨schema, by simp [St.schemaOf], Or.inl rfl⟩
      · rename_i g
        split at h
        · rename_i ho
          cases h
          match e : st.schemaOf name with
          | none => rw [e] at g; exact absurd rfl g
          | some s => exact ⟨s, rfl, Or.inr ⟨rfl, ho⟩⟩
        · cases h
  · intro hn
    simp only [St.create] at h
    split at h
    · cases h
    · rename_i g
      rw [hn] at h
      simp only [Option.isNone_none, if_true] at h
      cases h
      refine ⟨by simp [St.schemaOf], ?_⟩
      cases e : st.schemas schema with
      | none => rw [e] at g; exact absurd rfl g
      | some u => exact ⟨u, by simp [St.database, St.schemaOf, e]⟩

/-! ## What is listed -/

theorem mem_unique (n : String) (l : List String) : n ∈ unique l ↔ n ∈ l := by
  induction l with
  | nil => simp [unique]
  | cons m l ih =>
    simp only [unique, List.mem_cons, List.mem_filter, ih, decide_eq_true_eq]
    by_cases h : n = m <;> simp [h]

theorem nodup_unique (l : List String) : (unique l).Nodup := by
  induction l with
  | nil => simp [unique]
  | cons m l ih =>
    simp only [unique, List.nodup_cons, List.mem_filter]
    exact ⟨by simp, ih.filter _⟩

/-- The schemas that are listed are those registered under a name that some database has, each once.  Missing: the other
registered schemas, `C99_violated_listed`. -/
theorem C99_listed_partial (nameOf : Nat → String) (admin : Nat) (types : List Nat) (stored : List (String × String))
    (ops : List Op) (st : St) (h : openStorage nameOf admin types stored = .ok st) :
    (st.run nameOf ops).available.Nodup ∧
      ∀ t, t ∈ (st.run nameOf ops).available ↔ (st.run nameOf ops).schemas (nameOf t) = some t ∧
        ∃ d, d ∈ (st.run nameOf ops).databases ∧ d.2 = nameOf t := by
  have hn : ∀ n t, (st.run nameOf ops).schemas n = some t → nameOf t = n := by
    intro n t e
    rw [C99_registered nameOf admin types stored ops st h] at e
    have := List.mem_of_getLast? e
    simp only [given, List.mem_filter, decide_eq_true_eq] at this
    exact this.2
  constructor
  · unfold St.available
    refine List.Pairwise.filterMap _ ?_ (nodup_unique _)
    intro a b hab x hx y hy hxy
    subst hxy
    exact hab ((hn a x hx).symm.trans (hn b x hy))
  · intro t
    simp only [St.available, List.mem_filterMap, mem_unique, List.mem_map]
    constructor
    · rintro ⟨n, ⟨d, hd, rfl⟩, e⟩
      have := hn _ _ e
      exact ⟨by rw [this]; exact e, d, hd, this.symm⟩
    · rintro ⟨e, d, hd, hdn⟩
      exact ⟨nameOf t, ⟨d, hd, hdn⟩, e⟩

/-! ## What is violated -/

/-- A registration that is refused takes effect: databases are then opened by the type that was refused, also where the
caller names the first. -/
theorem C99_violated_register (nameOf : Nat → String) (st : St) (t u : Nat) (name : String) (hn : nameOf u = nameOf t)
    (ht : st.schemas (nameOf t) = some t) (hd : st.schemaOf name = some (nameOf t)) :
    st.databaseAs nameOf t name = .ok t ∧ (st.register nameOf u).1 = some (.schemaAlreadyRegistered (nameOf t)) ∧
      (st.register nameOf u).2.databaseAs nameOf t name = .ok u := by
  have hd' : (st.register nameOf u).2.schemaOf name = some (nameOf t) := hd
  simp only [St.databaseAs, St.database, hd, hd']
  simp [ht, St.register, hn, insertTy]

/-- When a storage is configured a second registration of a name is accepted and the first forgotten; a server forgets the
program's schema of the name of its own. -/
theorem C99_violated_configure (nameOf : Nat → String) (admin hosted t u : Nat) (stored : List (String × String))
    (ht : nameOf t ≠ nameOf admin) (hu : nameOf u = nameOf t) (hh : nameOf hosted ≠ nameOf admin) :
    (∃ st, openStorage nameOf admin [t, u] stored = .ok st ∧ st.schemas (nameOf t) = some u) ∧
      (nameOf t = nameOf hosted →
        ∃ st, openServer nameOf admin hosted [t] stored = .ok st ∧ st.schemas (nameOf t) = some hosted) := by
  constructor
  · obtain ⟨st, h⟩ := (C99_open nameOf admin [t, u] stored).2 (by simp [hu, ht])
    have := C99_registered nameOf admin [t, u] stored [] st h (nameOf t)
    refine ⟨st, h, ?_⟩
    simpa [St.run, given, List.filter_cons, hu, Ne.symm ht] using this
  · intro e
    obtain ⟨st, h⟩ := (C99_open nameOf admin [t, hosted] stored).2 (by simp [ht, hh])
    have := C99_registered nameOf admin [t, hosted] stored [] st h (nameOf t)
    refine ⟨st, h, ?_⟩
    simpa [St.run, given, List.filter_cons, e, Ne.symm hh] using this

/-- A schema that is registered is not listed until some database has it. -/
theorem C99_violated_listed (nameOf : Nat → String) (st : St) (t : Nat) (ht : st.schemas (nameOf t) = some t)
    (hinj : ∀ n, st.schemas n = some t → n = nameOf t) (hd : ∀ d, d ∈ st.databases → d.2 ≠ nameOf t) :
    t ∉ st.available := by
  simp only [St.available, List.mem_filterMap, mem_unique, List.mem_map, not_exists, not_and]
  rintro n ⟨d, hm, rfl⟩ e
  exact hd d hm (hinj _ e)

/-! ## Examples -/

/-- Types 0 (administration), 1, 2 with the name of 1, 3. -/
def exName : Nat → String
  | 0 => "admin"
  | 1 => "shop"
  | 2 => "shop"
  | _ => "blog"

example : ∃ st, openStorage exName 0 [1, 3] [] = .ok st ∧
    (st.run exName [.create "a" "shop" false]).databaseAs exName 1 "a" = .ok 1 ∧
    (st.run exName [.create "a" "shop" false]).available = [1] ∧
    (st.run exName [.create "a" "shop" false]).databaseAs exName 3 "a" = .error .schemaMismatch ∧
    (st.run exName [.create "a" "shop" false, .register 2]).databaseAs exName 1 "a" = .ok 2 := by
  exact ⟨_, rfl, rfl, rfl, rfl, rfl⟩

example : ∃ e, openStorage exName 0 [0] [] = .error e := ⟨.schemaAlreadyRegistered "admin", rfl⟩

end Bonsai.Registry
