import Verif.Tasks.Compact

/-! # C64: invariant of the pool -/
set_option linter.unusedSimpArgs false
set_option linter.unusedSectionVars false
set_option linter.unusedVariables false

namespace Bonsai.Jobs

variable {s : Schemas} {W : Nat}

theorem lookup_parts (st : St Key Bool) (k : Key) :
    (st.lookup k).1.running = st.running ∧ (st.lookup k).1.inbox = st.inbox ∧
      ((∃ id, st.keyed k = some id ∧ (st.lookup k).2.1 = id ∧ (st.lookup k).1.queue = st.queue) ∨
        (st.keyed k = none ∧ (st.lookup k).2.1 = (st.lastId + 1) % 2 ^ 64 ∧
          (st.lookup k).1.queue = st.queue ++ [⟨(st.lastId + 1) % 2 ^ 64, some k⟩])) := by
  unfold St.lookup
  cases hk : st.keyed k with
  | some id => exact ⟨rfl, rfl, .inl ⟨id, rfl, rfl, rfl⟩⟩
  | none => exact ⟨rfl, rfl, .inr ⟨rfl, rfl, rfl⟩⟩

/-- The invariant, on top of that of C44. -/
structure PInv (s : Schemas) (W : Nat) (evs : List (Event Key Bool)) (p : Pool) : Prop where
  inv : Inv evs p.jobs
  noPanic : ∀ id, ¬ Panicked evs id
  len : p.jobs.running.length ≤ W
  keyOf : ∀ k id h, Event.lookup k id h ∈ evs → ∀ t ∈ p.jobs.active, t.id = id → t.key = some k
  todo : ∀ t ∈ p.jobs.running, ∀ k ∈ (p.phase t.id).todo, k ∈ s.kidsOf t
  handles : ∀ t ∈ p.jobs.running, ∀ h ∈ (p.phase t.id).handles,
    ∃ k id, k ∈ s.kidsOf t ∧ Event.lookup k id h ∈ evs
  good : ∀ t ∈ p.jobs.running, (p.phase t.id).ok = true → ∀ k ∈ s.kidsOf t,
    k ∈ (p.phase t.id).todo ∨
      ∃ id h, Event.lookup k id h ∈ evs ∧ (h ∈ (p.phase t.id).handles ∨ true ∈ results evs id)

theorem nodup_active {st : St Key Bool} (h : (st.active.map (·.id)).Nodup) {t t' : Task Key}
    (ht : t ∈ st.active) (ht' : t' ∈ st.active) (hi : t.id = t'.id) : t = t' := by
  have hp := List.pairwise_map.1 h
  generalize st.active = l at ht ht' hp
  induction l with
  | nil => simp at ht
  | cons a l ih =>
    rw [List.pairwise_cons] at hp
    rcases List.mem_cons.1 ht with rfl | h1 <;> rcases List.mem_cons.1 ht' with rfl | h2
    · rfl
    · exact absurd hi (hp.1 _ h2)
    · exact absurd hi.symm (hp.1 _ h1)
    · exact ih h1 h2 hp.2

theorem results_mono {evs : List (Event Key Bool)} (e : List (Event Key Bool)) {id : Nat} {r : Bool}
    (h : r ∈ results evs id) : r ∈ results (evs ++ e) id := by
  unfold results at h ⊢
  rw [List.filterMap_append]
  exact List.mem_append_left _ h

theorem mem_results {evs : List (Event Key Bool)} {id : Nat} {r : Bool} (h : r ∈ results evs id) :
    Event.complete id r ∈ evs := by
  unfold results at h
  obtain ⟨e, he, hr⟩ := List.mem_filterMap.1 h
  cases e with
  | complete i r' =>
    simp only at hr
    split at hr
    · rename_i hi; injection hr with hr; subst hi; subst hr; exact he
    · cases hr
  | _ => simp at hr

theorem completed_parts (st : St Key Bool) (t : Task Key) (r : Bool) :
    (st.completed t r).running = st.running ∧ (st.completed t r).queue = st.queue := by
  unfold St.completed
  cases t.key <;> simp only <;> split <;> exact ⟨rfl, rfl⟩

theorem pinv_new : PInv s W [] Pool.new :=
  ⟨inv_new, by simp [Panicked], by simp [Pool.new, St.new], by simp, by simp [Pool.new, St.new],
    by simp [Pool.new, St.new], by simp [Pool.new, St.new]⟩

/-- What a lookup does to the C44 state, whoever makes it. -/
theorem keyOf_lookup {evs : List (Event Key Bool)} {p : Pool} (h : PInv s W evs p)
    (hlen : evs.length + 1 < 2 ^ 64) (k : Key) :
    ∀ k' id h', Event.lookup k' id h' ∈ evs ++ [.lookup k (p.jobs.lookup k).2.1 (p.jobs.lookup k).2.2] →
      ∀ t ∈ (p.jobs.lookup k).1.active, t.id = id → t.key = some k' := by
  have hsm := h.inv.small
  have hmod : (p.jobs.lastId + 1) % 2 ^ 64 = p.jobs.lastId + 1 := Nat.mod_eq_of_lt (by omega)
  obtain ⟨hr, _, hc⟩ := lookup_parts p.jobs k
  intro k' id h' hm t ht hid
  have hact : t ∈ p.jobs.active ∨ (p.jobs.keyed k = none ∧ t = ⟨p.jobs.lastId + 1, some k⟩ ∧
      (p.jobs.lookup k).2.1 = p.jobs.lastId + 1) := by
    simp only [St.active, List.mem_append, hr] at ht ⊢
    rcases hc with ⟨_, _, _, hq⟩ | ⟨hk, hid', hq⟩
    · rw [hq] at ht; exact .inl ht
    · rw [hq, hmod] at ht
      rw [hmod] at hid'
      simp only [List.mem_append, List.mem_cons, List.not_mem_nil, or_false] at ht
      rcases ht with (ht | ht) | ht
      · exact .inl (.inl ht)
      · exact .inr ⟨hk, ht, hid'⟩
      · exact .inl (.inr ht)
  rcases List.mem_append.1 hm with hm | hm
  · rcases hact with ha | ⟨_, rfl, _⟩
    · exact h.keyOf k' id h' hm t ha hid
    · exfalso
      have := (h.inv.joinedBound id h' (.inl ⟨k', hm⟩)).2
      simp only at hid
      omega
  · simp only [List.mem_cons, Event.lookup.injEq, List.not_mem_nil, or_false] at hm
    obtain ⟨rfl, rfl, rfl⟩ := hm
    rcases hact with ha | ⟨_, rfl, _⟩
    · rcases hc with ⟨i, hk, hi, _⟩ | ⟨hk, hi, _⟩
      · rw [hi] at hid
        rcases (h.inv.keyedActive k' i hk).1 with ha' | hp
        · have := nodup_active h.inv.ids ha ha' hid
          rw [this]
        · exact absurd hp (h.noPanic i)
      · exfalso
        have := (h.inv.idBound t ha).1
        rw [hi, hmod] at hid
        omega
    · rfl

theorem running_active {st : St Key Bool} {t : Task Key} (h : t ∈ st.running) : t ∈ st.active := by
  simp [St.active, h]

theorem pinv_step {evs : List (Event Key Bool)} {p p' : Pool} {e : Option (Event Key Bool)}
    (h : PInv s W evs p) (hlen : (evs ++ e.toList).length < 2 ^ 64) (hs : PStep s W p e p') :
    PInv s W (evs ++ e.toList) p' := by
  cases hs with
  | call k =>
    have hlen : evs.length + 1 < 2 ^ 64 := by simpa [Option.toList] using hlen
    obtain ⟨hr, hib, hc⟩ := lookup_parts p.jobs k
    refine ⟨inv_step h.inv (by simpa using hlen) (.lookup p.jobs k), ?_, ?_, ?_, ?_, ?_, ?_⟩
    · intro id hp
      simp only [Panicked, Option.toList, List.mem_append, List.mem_cons, List.not_mem_nil,
        or_false, reduceCtorEq] at hp
      exact h.noPanic id hp
    · show (p.jobs.lookup k).1.running.length ≤ W
      rw [hr]; exact h.len
    · exact keyOf_lookup h hlen k
    · intro t ht; rw [hr] at ht; exact h.todo t ht
    · intro t ht x hx; rw [hr] at ht
      obtain ⟨k', id, a, b⟩ := h.handles t ht x hx
      exact ⟨k', id, a, List.mem_append_left _ b⟩
    · intro t ht hok k' hk'; rw [hr] at ht
      rcases h.good t ht hok k' hk' with a | ⟨id, x, a, b⟩
      · exact .inl a
      · exact .inr ⟨id, x, List.mem_append_left _ a, b.imp_right fun b => results_mono _ b⟩
  | worker hs =>
    cases hs with
    | start t q hq hw =>
      have hlen : evs.length + 1 < 2 ^ 64 := by simpa [Option.toList] using hlen
      have hact : t ∈ p.jobs.active := by simp [St.active, hq]
      have hother : ∀ t' ∈ p.jobs.running, t'.id ≠ t.id := by
        intro t' ht' hid
        have := h.inv.ids
        simp only [St.active, hq, List.cons_append, List.map_cons, List.nodup_cons, List.map_append,
          List.mem_append, List.mem_map] at this
        exact this.1 (.inr ⟨t', ht', hid⟩)
      refine ⟨inv_step h.inv (by simpa using hlen) (.start p.jobs t q hq), ?_, ?_, ?_, ?_, ?_, ?_⟩
      · intro id hp
        simp only [Panicked, Option.toList, List.mem_append, List.mem_cons, List.not_mem_nil,
          or_false, reduceCtorEq] at hp
        exact h.noPanic id hp
      · simp only [List.length_append, List.length_cons, List.length_nil]; omega
      · intro k id x hm t' ht' hid
        simp only [Option.toList, List.mem_append, List.mem_cons, List.not_mem_nil,
          or_false, reduceCtorEq] at hm
        refine h.keyOf k id x hm t' ?_ hid
        simp only [St.active, hq, List.mem_append, List.mem_cons, List.not_mem_nil, or_false] at ht' ⊢
        rcases ht' with h1 | h1 | h1
        · exact .inl (.inr h1)
        · exact .inr h1
        · exact .inl (.inl h1)
      · intro t' ht' k hk
        simp only [List.mem_append, List.mem_cons, List.not_mem_nil, or_false] at ht'
        rcases ht' with ht' | rfl
        · simp only [put_ne _ _ (hother t' ht')] at hk; exact h.todo t' ht' k hk
        · simpa only [put_self] using hk
      · intro t' ht' x hx
        simp only [List.mem_append, List.mem_cons, List.not_mem_nil, or_false] at ht'
        rcases ht' with ht' | rfl
        · simp only [put_ne _ _ (hother t' ht')] at hx
          obtain ⟨k', id, a, b⟩ := h.handles t' ht' x hx
          exact ⟨k', id, a, List.mem_append_left _ b⟩
        · simp only [put_self, List.not_mem_nil] at hx
      · intro t' ht' hok k' hk'
        simp only [List.mem_append, List.mem_cons, List.not_mem_nil, or_false] at ht'
        rcases ht' with ht' | rfl
        · simp only [put_ne _ _ (hother t' ht')] at hok ⊢
          rcases h.good t' ht' hok k' hk' with a | ⟨id, x, a, b⟩
          · exact .inl a
          · exact .inr ⟨id, x, List.mem_append_left _ a, b.imp_right fun b => results_mono _ b⟩
        · exact .inl (by simpa only [put_self] using hk')
    | spawn t k ks ht hp =>
      have hlen : evs.length + 1 < 2 ^ 64 := by simpa [Option.toList] using hlen
      obtain ⟨hr, hib, hc⟩ := lookup_parts p.jobs k
      have hother : ∀ t' ∈ p.jobs.running, t' ≠ t → t'.id ≠ t.id := fun t' ht' hne hid =>
        hne (nodup_active h.inv.ids (running_active ht') (running_active ht) hid)
      have hkk : k ∈ s.kidsOf t := h.todo t ht k (by rw [hp]; simp)
      refine ⟨inv_step h.inv (by simpa using hlen) (.lookup p.jobs k), ?_, ?_, ?_, ?_, ?_, ?_⟩
      · intro id hp
        simp only [Panicked, Option.toList, List.mem_append, List.mem_cons, List.not_mem_nil,
          or_false, reduceCtorEq] at hp
        exact h.noPanic id hp
      · show (p.jobs.lookup k).1.running.length ≤ W
        rw [hr]; exact h.len
      · exact keyOf_lookup h hlen k
      · intro t' ht' k' hk'
        rw [hr] at ht'
        by_cases he : t' = t
        · subst he
          simp only [put_self] at hk'
          exact h.todo t' ht' k' (by rw [hp]; exact List.mem_cons_of_mem _ hk')
        · simp only [put_ne _ _ (hother t' ht' he)] at hk'
          exact h.todo t' ht' k' hk'
      · intro t' ht' x hx
        rw [hr] at ht'
        by_cases he : t' = t
        · subst he
          simp only [put_self, List.mem_append, List.mem_cons, List.not_mem_nil, or_false] at hx
          rcases hx with hx | rfl
          · obtain ⟨k', id, a, b⟩ := h.handles t' ht' x hx
            exact ⟨k', id, a, List.mem_append_left _ b⟩
          · exact ⟨k, (p.jobs.lookup k).2.1, hkk, List.mem_append_right _ (by simp [Option.toList])⟩
        · simp only [put_ne _ _ (hother t' ht' he)] at hx
          obtain ⟨k', id, a, b⟩ := h.handles t' ht' x hx
          exact ⟨k', id, a, List.mem_append_left _ b⟩
      · intro t' ht' hok k' hk'
        rw [hr] at ht'
        by_cases he : t' = t
        · subst he
          simp only [put_self] at hok ⊢
          rcases h.good t' ht' hok k' hk' with a | ⟨id, x, a, b⟩
          · rw [hp] at a
            rcases List.mem_cons.1 a with rfl | a
            · exact .inr ⟨(p.jobs.lookup k').2.1, (p.jobs.lookup k').2.2,
                List.mem_append_right _ (by simp [Option.toList]), .inl (by simp)⟩
            · exact .inl a
          · refine .inr ⟨id, x, List.mem_append_left _ a, ?_⟩
            rcases b with b | b
            · exact .inl (List.mem_append_left _ b)
            · exact .inr (results_mono _ b)
        · simp only [put_ne _ _ (hother t' ht' he)] at hok ⊢
          rcases h.good t' ht' hok k' hk' with a | ⟨id, x, a, b⟩
          · exact .inl a
          · exact .inr ⟨id, x, List.mem_append_left _ a, b.imp_right fun b => results_mono _ b⟩
    | receive t x xs r rest ht hd hp hr =>
      simp only [Option.toList, List.append_nil]
      have hother : ∀ t' ∈ p.jobs.running, t' ≠ t → t'.id ≠ t.id := fun t' ht' hne hid =>
        hne (nodup_active h.inv.ids (running_active ht') (running_active ht) hid)
      refine ⟨h.inv, h.noPanic, h.len, h.keyOf, ?_, ?_, ?_⟩
      · intro t' ht' k' hk'
        by_cases he : t' = t
        · subst he
          simp only [put_self] at hk'
          cases r <;> simp at hk'
        · simp only [put_ne _ _ (hother t' ht' he)] at hk'
          exact h.todo t' ht' k' hk'
      · intro t' ht' y hy
        by_cases he : t' = t
        · subst he
          simp only [put_self] at hy
          cases r
          · simp at hy
          · simp only [if_true] at hy
            exact h.handles t' ht' y (by rw [hp]; exact List.mem_cons_of_mem _ hy)
        · simp only [put_ne _ _ (hother t' ht' he)] at hy
          exact h.handles t' ht' y hy
      · intro t' ht' hok k' hk'
        by_cases he : t' = t
        · subst he
          simp only [put_self] at hok ⊢
          cases r
          · simp at hok
          · simp only [if_true] at hok ⊢
            rcases h.good t' ht' hok k' hk' with a | ⟨id, y, a, b⟩
            · rw [hd] at a; simp at a
            · refine .inr ⟨id, y, a, ?_⟩
              rcases b with b | b
              · rw [hp] at b
                rcases List.mem_cons.1 b with rfl | b
                · right
                  rcases h.inv.waiting id y (.inl ⟨k', a⟩) with ⟨_, _, _, hi⟩ | ⟨r', h1, h2, _⟩
                  · rw [hi] at hr; cases hr
                  · rw [h2] at hr; injection hr with hr; subst hr; rw [h1]; simp
                · exact .inl b
              · exact .inr b
        · simp only [put_ne _ _ (hother t' ht' he)] at hok ⊢
          exact h.good t' ht' hok k' hk'
    | complete t r pre post hr hd hp hres =>
      have hlen : evs.length + 1 < 2 ^ 64 := by simpa [Option.toList] using hlen
      obtain ⟨c1, c2⟩ := completed_parts { p.jobs with running := pre ++ post } t r
      simp only at c1 c2
      have hsub : ∀ t' ∈ pre ++ post, t' ∈ p.jobs.running := by
        intro t' ht'; rw [hr]; simp only [List.mem_append, List.mem_cons] at ht' ⊢
        rcases ht' with a | a
        · exact .inl a
        · exact .inr (.inr a)
      refine ⟨inv_step h.inv (by simpa using hlen) (.complete p.jobs t r pre post hr), ?_, ?_, ?_, ?_, ?_, ?_⟩
      · intro id hp
        simp only [Panicked, Option.toList, List.mem_append, List.mem_cons, List.not_mem_nil,
          or_false, reduceCtorEq] at hp
        exact h.noPanic id hp
      · simp only [c1]
        have := h.len
        rw [hr] at this
        simp only [List.length_append, List.length_cons] at this ⊢
        omega
      · intro k id x hm t' ht' hid
        simp only [Option.toList, List.mem_append, List.mem_cons, List.not_mem_nil,
          or_false, reduceCtorEq] at hm
        refine h.keyOf k id x hm t' ?_ hid
        simp only [St.active, c1, c2] at ht'
        rcases List.mem_append.1 ht' with a | a
        · simp [St.active, a]
        · exact running_active (hsub t' a)
      · intro t' ht' k' hk'
        rw [c1] at ht'; exact h.todo t' (hsub t' ht') k' hk'
      · intro t' ht' x hx
        rw [c1] at ht'
        obtain ⟨k', id, a, b⟩ := h.handles t' (hsub t' ht') x hx
        exact ⟨k', id, a, List.mem_append_left _ b⟩
      · intro t' ht' hok k' hk'
        rw [c1] at ht'
        rcases h.good t' (hsub t' ht') hok k' hk' with a | ⟨id, x, a, b⟩
        · exact .inl a
        · exact .inr ⟨id, x, List.mem_append_left _ a, b.imp_right fun b => results_mono _ b⟩

theorem pinv_run {evs : List (Event Key Bool)} {p : Pool} (h : PRun s W Pool.new evs p)
    (hlen : evs.length < 2 ^ 64) : PInv s W evs p := by
  generalize hn : Pool.new = p0 at h
  induction h with
  | nil => subst hn; exact pinv_new
  | snoc h st ih =>
    refine pinv_step (ih ?_) hlen st
    simp only [List.length_append] at hlen
    omega

end Bonsai.Jobs
