import Verif.Tasks.CompactInv

/-!
# C64: compaction finishes and does not block the storage

See `Verif/Tasks/Compact.lean` for the model.
-/
set_option linter.unusedSimpArgs false
set_option linter.unusedSectionVars false
set_option linter.unusedVariables false

namespace Bonsai.Jobs

variable {s : Schemas} {W : Nat}

/-- An upper bound for the number of steps the workers still have to do. -/
def Pool.work (s : Schemas) (p : Pool) : Nat :=
  (p.jobs.queue.map fun t => 2 + 4 * (s.kidsOf t).length).sum +
    (p.jobs.running.map fun t => 1 + 4 * (p.phase t.id).todo.length + (p.phase t.id).handles.length).sum

/-- The compactions of whole databases and collections that are queued or running. -/
def Pool.groups (p : Pool) : List (Task Key) := p.jobs.active.filter fun t => decide t.IsGroup

/-! ## Proofs -/

theorem sum_put {l : List (Task Key)} {f : Nat → Phase} {t : Task Key} {x : Phase} (w : Phase → Nat)
    (hn : (l.map (·.id)).Nodup) (ht : t ∈ l) :
    (l.map fun t' => w (put f t.id x t'.id)).sum + w (f t.id) = (l.map fun t' => w (f t'.id)).sum + w x := by
  induction l with
  | nil => simp at ht
  | cons a l ih =>
    simp only [List.map_cons, List.nodup_cons, List.mem_map, List.sum_cons] at hn ⊢
    rcases List.mem_cons.1 ht with rfl | ht'
    · have : (l.map fun t' => w (put f t.id x t'.id)) = l.map fun t' => w (f t'.id) := by
        refine List.map_congr_left fun t' ht' => ?_
        rw [put_ne]
        intro he; exact hn.1 ⟨t', ht', he⟩
      rw [this, put_self]; omega
    · have hne : a.id ≠ t.id := fun he => hn.1 ⟨t, ht', he.symm⟩
      have := ih hn.2 ht'
      rw [put_ne _ _ hne]
      omega

theorem nodup_running {st : St Key Bool} (h : (st.active.map (·.id)).Nodup) :
    (st.running.map (·.id)).Nodup := by
  simp only [St.active, List.map_append] at h
  exact (List.nodup_append.1 h).2.1

/-- Every step of a worker reduces the work. -/
theorem work_decreases {evs : List (Event Key Bool)} {p p' : Pool} {e : Option (Event Key Bool)}
    (h : PInv s W evs p) (hs : WStep s W p e p') : p'.work s < p.work s := by
  have hnd := nodup_running h.inv.ids
  cases hs with
  | start t q hq hw =>
    have hother : ∀ t' ∈ p.jobs.running, t'.id ≠ t.id := by
      intro t' ht' hid
      have := h.inv.ids
      simp only [St.active, hq, List.cons_append, List.map_cons, List.nodup_cons, List.map_append,
        List.mem_append, List.mem_map] at this
      exact this.1 (.inr ⟨t', ht', hid⟩)
    have : (p.jobs.running.map fun t' => 1 + 4 * (put p.phase t.id ⟨s.kidsOf t, [], true⟩ t'.id).todo.length
          + (put p.phase t.id ⟨s.kidsOf t, [], true⟩ t'.id).handles.length) =
        p.jobs.running.map fun t' => 1 + 4 * (p.phase t'.id).todo.length + (p.phase t'.id).handles.length := by
      refine List.map_congr_left fun t' ht' => ?_
      rw [put_ne _ _ (hother t' ht')]
    simp only [Pool.work, hq, List.map_cons, List.sum_cons, List.map_append, List.sum_append, this,
      put_self, List.length_nil, List.map_nil, List.sum_nil]
    omega
  | spawn t k ks ht hp =>
    obtain ⟨hr, _, hc⟩ := lookup_parts p.jobs k
    have hk : k ∈ s.kidsOf t := h.todo t ht k (by rw [hp]; simp)
    have hleaf : ∀ id, s.kidsOf ⟨id, some k⟩ = [] := fun id => kids_not_group (kids_leaf hk _ rfl)
    have hsum := sum_put (f := p.phase) (t := t) (x := { p.phase t.id with
            todo := ks, handles := (p.phase t.id).handles ++ [(p.jobs.lookup k).2.2] })
      (fun x => 1 + 4 * x.todo.length + x.handles.length) hnd ht
    simp only [hp, List.length_cons, List.length_append, List.length_nil] at hsum
    simp only [Pool.work, hr]
    rcases hc with ⟨_, _, _, hq⟩ | ⟨_, _, hq⟩
    · rw [hq]; omega
    · rw [hq]
      simp only [List.map_append, List.sum_append, List.map_cons, List.map_nil, List.sum_cons,
        List.sum_nil, hleaf, List.length_nil]
      omega
  | receive t x xs r rest ht hd hp hr =>
    have hsum := sum_put (f := p.phase) (t := t)
      (x := if r then ⟨[], xs, (p.phase t.id).ok⟩ else ⟨[], [], false⟩)
      (fun x => 1 + 4 * x.todo.length + x.handles.length) hnd ht
    simp only [hd, hp, List.length_cons, List.length_nil] at hsum
    simp only [Pool.work]
    cases r <;> simp only [if_true, Bool.false_eq_true, if_false, List.length_nil] at hsum ⊢ <;> omega
  | complete t r pre post hr hd hp hres =>
    obtain ⟨c1, c2⟩ := completed_parts { p.jobs with running := pre ++ post } t r
    simp only at c1 c2
    simp only [Pool.work, c1, c2, hr, List.map_append, List.sum_append, List.map_cons, List.sum_cons]
    omega

theorem groups_decrease {evs : List (Event Key Bool)} {p p' : Pool} {e : Option (Event Key Bool)}
    (h : PInv s W evs p) (hs : WStep s W p e p') : p'.groups.length ≤ p.groups.length := by
  cases hs with
  | start t q hq hw =>
    simp only [Pool.groups, St.active, hq, List.filter_append, List.length_append, List.filter_cons,
      List.filter_nil]
    split <;> simp <;> omega
  | spawn t k ks ht hp =>
    obtain ⟨hr, _, hc⟩ := lookup_parts p.jobs k
    have hk : k ∈ s.kidsOf t := h.todo t ht k (by rw [hp]; simp)
    have hleaf : ∀ id, ¬ (⟨id, some k⟩ : Task Key).IsGroup := fun id => kids_leaf hk _ rfl
    simp only [Pool.groups, St.active, hr]
    rcases hc with ⟨_, _, _, hq⟩ | ⟨_, _, hq⟩
    · rw [hq]; exact Nat.le_refl _
    · rw [hq]
      simp only [List.filter_append, List.length_append, List.filter_cons, List.filter_nil, hleaf,
        decide_false, Bool.false_eq_true, if_false, List.length_nil]
      omega
  | receive t x xs r rest ht hd hp hr => exact Nat.le_refl _
  | complete t r pre post hr hd hp hres =>
    obtain ⟨c1, c2⟩ := completed_parts { p.jobs with running := pre ++ post } t r
    simp only at c1 c2
    simp only [Pool.groups, St.active, c1, c2, hr, List.filter_append, List.length_append,
      List.filter_cons]
    split <;> simp <;> omega

/-- A worker can always do something while a job is queued or running, if fewer than `W` of the running
jobs are compactions of databases or collections. -/
theorem idle_nothing_active {evs : List (Event Key Bool)} {p : Pool} (h : PInv s W evs p)
    (hg : (p.jobs.running.filter fun t => decide t.IsGroup).length < W) (hi : p.Idle s W) :
    p.jobs.active = [] := by
  -- a running job that waits for nothing can end
  have hfin : ∀ t ∈ p.jobs.running, (p.phase t.id).todo = [] → (p.phase t.id).handles = [] → False := by
    intro t ht h1 h2
    obtain ⟨pre, post, hr⟩ := List.append_of_mem ht
    exact hi _ _ (.complete p t (p.phase t.id).ok pre post hr h1 h2 (.inr rfl))
  have hnk : ∀ t ∈ p.jobs.running, s.kidsOf t = [] → False := by
    intro t ht hk
    refine hfin t ht ?_ ?_
    · cases htd : (p.phase t.id).todo with
      | nil => rfl
      | cons k ks =>
        have := h.todo t ht k (by rw [htd]; simp)
        rw [hk] at this; simp at this
    · cases hh : (p.phase t.id).handles with
      | nil => rfl
      | cons x xs =>
        obtain ⟨k, id, hk', _⟩ := h.handles t ht x (by rw [hh]; simp)
        rw [hk] at hk'; simp at hk'
  have hall : ∀ t ∈ p.jobs.running, t.IsGroup := fun t ht => by
    by_cases hgr : t.IsGroup
    · exact hgr
    · exact (hnk t ht (kids_not_group hgr)).elim
  have hlt : p.jobs.running.length < W := by
    have : p.jobs.running.filter (fun t => decide t.IsGroup) = p.jobs.running :=
      List.filter_eq_self.2 fun t ht => decide_eq_true (hall t ht)
    rwa [this] at hg
  have hq : p.jobs.queue = [] := by
    cases hq : p.jobs.queue with
    | nil => rfl
    | cons t q => exact (hi _ _ (.start p t q hq hlt)).elim
  have hr : p.jobs.running = [] := by
    cases hr : p.jobs.running with
    | nil => rfl
    | cons t l =>
      exfalso
      have ht : t ∈ p.jobs.running := by rw [hr]; simp
      cases htd : (p.phase t.id).todo with
      | cons k ks => exact hi _ _ (.spawn p t k ks ht htd)
      | nil =>
        cases hh : (p.phase t.id).handles with
        | nil => exact hfin t ht htd hh
        | cons x xs =>
          obtain ⟨k, id, hk, hev⟩ := h.handles t ht x (by rw [hh]; simp)
          rcases h.inv.waiting id x (.inl ⟨k, hev⟩) with ⟨_, ⟨t', ht', hid⟩ | hp, _, _⟩ | ⟨r, _, hb, _⟩
          · have hk' := h.keyOf k id x hev t' ht' hid
            have ht'' : t' ∈ p.jobs.running := by simpa [St.active, hq] using ht'
            exact hnk t' ht'' (kids_not_group (kids_leaf hk t' hk'))
          · exact h.noPanic _ hp
          · exact hi _ _ (.receive p t x xs r [] ht htd hh hb)
  simp [St.active, hq, hr]

theorem wrun_facts {evs : List (Event Key Bool)} {p : Pool} (h : PRun s W Pool.new evs p)
    (hlen : evs.length + p.work s < 2 ^ 64) {n : Nat} {p' : Pool} (hw : WRun s W p n p') :
    ∃ evs', PRun s W Pool.new (evs ++ evs') p' ∧ evs'.length ≤ n ∧ n + p'.work s ≤ p.work s ∧
      p'.groups.length ≤ p.groups.length := by
  induction hw with
  | nil => exact ⟨[], by simpa using h, by simp, by simp, Nat.le_refl _⟩
  | snoc hw st ih =>
    rename_i p1 p2 n e
    obtain ⟨es, h1, h2, h3, h4⟩ := ih
    have hinv : PInv s W (evs ++ es) p1 := pinv_run h1 (by simp only [List.length_append]; omega)
    have hd := work_decreases hinv st
    refine ⟨es ++ e.toList, ?_, ?_, by omega, Nat.le_trans (groups_decrease hinv st) h4⟩
    · rw [← List.append_assoc]; exact .snoc h1 (.worker st)
    · simp only [List.length_append]
      have : e.toList.length ≤ 1 := by cases e <;> simp [Option.toList]
      omega

/-! ## The property -/

/-- **C64** (partial): take any reachable state in which fewer than `W` compactions of databases or
collections are queued or running.  Left alone, the `W` workers do at most `work` more steps, whatever
the schedule, and when they can do no more, no job is queued or running and every handle that was ever
given out — to a caller of `compact`, a view query, another job — has received exactly one result.
(Missing: `W` or more such compactions, see `C64_violated_deadlock`.) -/
theorem C64_compaction_terminates_partial (evs : List (Event Key Bool)) (p : Pool)
    (h : PRun s W Pool.new evs p) (hlen : evs.length + p.work s < 2 ^ 64) (hg : p.groups.length < W)
    (n : Nat) (p' : Pool) (hw : WRun s W p n p') :
    n ≤ p.work s ∧ (p'.Idle s W → p'.jobs.active = [] ∧
      ∀ id ch, Joined evs id ch → ∃ r, p'.jobs.inbox ch = [r]) := by
  obtain ⟨es, h1, h2, h3, h4⟩ := wrun_facts h hlen hw
  refine ⟨by omega, fun hi => ?_⟩
  have hinv : PInv s W (evs ++ es) p' := pinv_run h1 (by simp only [List.length_append]; omega)
  have hact : p'.jobs.active = [] := by
    refine idle_nothing_active hinv ?_ hi
    have : (p'.jobs.running.filter fun t => decide t.IsGroup).length ≤ p'.groups.length := by
      simp only [Pool.groups, St.active, List.filter_append, List.length_append]; omega
    omega
  refine ⟨hact, fun id ch hj => ?_⟩
  have hj' : Joined (evs ++ es) id ch := by
    rcases hj with ⟨k, hk⟩ | hk
    · exact .inl ⟨k, List.mem_append_left _ hk⟩
    · exact .inr (List.mem_append_left _ hk)
  obtain ⟨r, hr, _⟩ := C44_everyone_is_answered_partial (evs ++ es) p'.jobs
    (prun_run (p := Pool.new) h1) (by simp only [List.length_append]; omega) id ch hj' (by simp [hact])
    (hinv.noPanic id)
  exact ⟨r, hr⟩

/-- **C64**: the workers never have to give up in the meantime: from such a state the workers can
always be run to the end. -/
theorem C64_compaction_can_finish (evs : List (Event Key Bool)) (p : Pool)
    (h : PRun s W Pool.new evs p) (hlen : evs.length + p.work s < 2 ^ 64) :
    ∃ n p', WRun s W p n p' ∧ p'.Idle s W := by
  have key : ∀ m p1 n, WRun s W p n p1 → p1.work s ≤ m → ∃ n p', WRun s W p n p' ∧ p'.Idle s W := by
    intro m
    induction m with
    | zero =>
      intro p1 n hw hm
      obtain ⟨es, h1, h2, h3, h4⟩ := wrun_facts h hlen hw
      have hinv : PInv s W (evs ++ es) p1 := pinv_run h1 (by simp only [List.length_append]; omega)
      exact ⟨n, p1, hw, fun e p2 st => by have := work_decreases hinv st; omega⟩
    | succ m ih =>
      intro p1 n hw hm
      obtain ⟨es, h1, h2, h3, h4⟩ := wrun_facts h hlen hw
      have hinv : PInv s W (evs ++ es) p1 := pinv_run h1 (by simp only [List.length_append]; omega)
      by_cases hi : ∃ e p2, WStep s W p1 e p2
      · obtain ⟨e, p2, st⟩ := hi
        have := work_decreases hinv st
        exact ih p2 (n + 1) (.snoc hw st) (by omega)
      · exact ⟨n, p1, hw, fun e p2 st => hi ⟨e, p2, st⟩⟩
  exact key _ p 0 (.nil p) (Nat.le_refl _)

/-- **C64**: when the compaction of a database reports success, then for every collection of its schema
the document tree, the tree of view versions and the three trees of every view, and the key-value tree,
each were compacted by a job that reported success; and likewise for a collection. -/
theorem C64_success_means_every_tree (evs : List (Event Key Bool)) (p p' : Pool)
    (h : PRun s W Pool.new evs p) (hlen : evs.length < 2 ^ 64) (t : Task Key)
    (ht : t ∈ p.jobs.running) (hs : WStep s W p (some (.complete t.id true)) p') (db : Nat) :
    let Done (x : Target) : Prop :=
      ∃ id, (∃ ch, Event.lookup (.compaction db x) id ch ∈ evs) ∧ Event.complete id true ∈ evs
    let DoneCollection (c : Nat) : Prop :=
      Done (.versionedTree (.documents c)) ∧ Done (.unversionedTree (.viewVersions c)) ∧
        ∀ v ∈ s.views db c, Done (.unversionedTree (.viewEntries v)) ∧
          Done (.unversionedTree (.viewDocumentMap v)) ∧ Done (.unversionedTree (.viewInvalidated v))
    (t.key = some (.compaction db .database) →
        (∀ c ∈ s.collections db, DoneCollection c) ∧ Done .keyValue) ∧
      (∀ c, t.key = some (.compaction db (.collection c)) → DoneCollection c) := by
  intro Done DoneCollection
  have hinv := pinv_run h hlen
  generalize he : (some (.complete t.id true) : Option (Event Key Bool)) = e at hs
  have key : s.kidsOf t ≠ [] → ∀ k ∈ s.kidsOf t,
      ∃ id, (∃ ch, Event.lookup k id ch ∈ evs) ∧ Event.complete id true ∈ evs := by
    intro hne k hk
    cases hs with
    | start => simp at he
    | spawn => simp at he
    | receive => simp at he
    | complete t' r pre post hr hd hp hres =>
      simp only [Option.some.injEq, Event.complete.injEq] at he
      obtain ⟨hid, rfl⟩ := he
      have ht' : t' ∈ p.jobs.running := by rw [hr]; simp
      have := nodup_active hinv.inv.ids (running_active ht) (running_active ht') hid
      subst this
      have hok : (p.phase t.id).ok = true := by
        rcases hres with hres | hres
        · exact absurd hres hne
        · exact hres.symm
      rcases hinv.good t ht hok k hk with a | ⟨id, ch, a, b⟩
      · rw [hd] at a; simp at a
      · rcases b with b | b
        · rw [hp] at b; simp at b
        · exact ⟨id, ⟨ch, a⟩, mem_results b⟩
  have hcol : ∀ c, (∀ x ∈ s.gather db c, Done x) → DoneCollection c := by
    intro c hx
    refine ⟨hx _ (by simp [Schemas.gather]), hx _ (by simp [Schemas.gather]), fun v hv => ?_⟩
    refine ⟨hx _ ?_, hx _ ?_, hx _ ?_⟩ <;>
      (simp only [Schemas.gather, List.mem_append, List.mem_flatMap]; exact .inr ⟨v, hv, by simp⟩)
  refine ⟨fun hk => ?_, fun c hk => ?_⟩
  · have hkids : s.kidsOf t = ((s.collections db).flatMap (s.gather db) ++ [Target.keyValue]).map
        (.compaction db) := by simp [Schemas.kidsOf, hk, Schemas.kids]
    have hd : ∀ x ∈ (s.collections db).flatMap (s.gather db) ++ [Target.keyValue], Done x := by
      intro x hx
      refine key (by rw [hkids]; simp) (.compaction db x) ?_
      rw [hkids]; exact List.mem_map_of_mem hx
    exact ⟨fun c hc => hcol c fun x hx => hd x (List.mem_append_left _ (List.mem_flatMap.2 ⟨c, hc, hx⟩)),
      hd _ (by simp)⟩
  · have hkids : s.kidsOf t = (s.gather db c).map (.compaction db) := by
      simp [Schemas.kidsOf, hk, Schemas.kids]
    refine hcol c fun x hx => key (by rw [hkids]; simp [Schemas.gather]) (.compaction db x) ?_
    rw [hkids]; exact List.mem_map_of_mem hx

end Bonsai.Jobs
