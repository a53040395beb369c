import Verif.Tasks.C64

/-!
# C64 is violated: compactions that wait for each other's workers

As many compactions of databases (or collections) as there are workers occupy all of them, each waiting
for jobs that nobody is left to run.
-/
set_option linter.unusedSimpArgs false
set_option linter.unusedSectionVars false
set_option linter.unusedVariables false

namespace Bonsai.Jobs

variable {s : Schemas} {W : Nat}

theorem PRun.append {a b c : Pool} {es fs : List (Event Key Bool)} (h : PRun s W a es b)
    (g : PRun s W b fs c) : PRun s W a (es ++ fs) c := by
  induction g with
  | nil => simpa using h
  | snoc g st ih => rw [← List.append_assoc]; exact .snoc ih st

/-- All workers run jobs that wait for a result that is not there. -/
def Pool.Stuck (W : Nat) (p : Pool) : Prop :=
  p.jobs.running.length = W ∧ ∀ t ∈ p.jobs.running, (p.phase t.id).todo = [] ∧
    ∃ h hs, (p.phase t.id).handles = h :: hs ∧ p.jobs.inbox h = []

theorem stuck_idle {p : Pool} (h : p.Stuck W) : p.Idle s W := by
  intro e p' st
  cases st with
  | start t q hq hw => have := h.1; omega
  | spawn t k ks ht hp => rw [(h.2 t ht).1] at hp; cases hp
  | receive t x xs r rest ht hd hp hr =>
    obtain ⟨_, y, ys, h1, h2⟩ := h.2 t ht
    rw [hp] at h1; injection h1 with h1; subst h1
    rw [h2] at hr; cases hr
  | complete t r pre post hr hd hp hres =>
    obtain ⟨_, y, ys, h1, h2⟩ := h.2 t (by rw [hr]; simp)
    rw [hp] at h1; cases h1

/-- Once stuck, stuck for ever, whatever callers do. -/
theorem stuck_forever {p p' : Pool} {evs : List (Event Key Bool)} (h : p.Stuck W)
    (hr : PRun s W p evs p') :
    p'.Stuck W ∧ p'.jobs.running = p.jobs.running ∧ p'.jobs.inbox = p.jobs.inbox ∧
      ∀ id r, Event.complete id r ∉ evs := by
  induction hr with
  | nil => exact ⟨h, rfl, rfl, by simp⟩
  | snoc hr st ih =>
    obtain ⟨a, b, c, d⟩ := ih
    cases st with
    | worker st => exact (stuck_idle a _ _ st).elim
    | call k =>
      rename_i p1 es
      obtain ⟨l1, l2, _⟩ := lookup_parts p1.jobs k
      refine ⟨⟨?_, ?_⟩, ?_, ?_, ?_⟩
      · simp only [l1]; exact a.1
      · simp only [l1, l2]; exact a.2
      · simp only [l1]; exact b
      · simp only [l2]; exact c
      · intro id r
        simp only [Option.toList, List.mem_append, List.mem_cons, List.not_mem_nil, or_false,
          reduceCtorEq]
        exact d id r

theorem le_sum_of_mem {l : List Nat} {x : Nat} (h : x ∈ l) : x ≤ l.sum := by
  induction l with
  | nil => simp at h
  | cons a l ih =>
    rw [List.sum_cons]
    rcases List.mem_cons.1 h with rfl | h
    · omega
    · have := ih h; omega

/-- Running jobs spawn everything they want. -/
theorem spawn_all (p : Pool) (hn : (p.jobs.running.map (·.id)).Nodup)
    (hi : p.jobs.inbox = fun _ => [])
    (hp : ∀ t ∈ p.jobs.running, (p.phase t.id).todo ≠ [] ∨ (p.phase t.id).handles ≠ []) :
    ∃ evs p', PRun s W p evs p' ∧ p'.jobs.running = p.jobs.running ∧ p'.jobs.inbox = (fun _ => []) ∧
      ∀ t ∈ p'.jobs.running, (p'.phase t.id).todo = [] ∧ (p'.phase t.id).handles ≠ [] := by
  generalize hm : (p.jobs.running.map fun t => (p.phase t.id).todo.length).sum = m
  induction m generalizing p with
  | zero =>
    refine ⟨[], p, .nil p, rfl, hi, fun t ht => ?_⟩
    have h0 : (p.phase t.id).todo = [] := by
      have : (p.phase t.id).todo.length ≤ (p.jobs.running.map fun t => (p.phase t.id).todo.length).sum :=
        le_sum_of_mem (List.mem_map.2 ⟨t, ht, rfl⟩)
      exact List.eq_nil_of_length_eq_zero (by omega)
    exact ⟨h0, (hp t ht).resolve_left (by simp [h0])⟩
  | succ m ih =>
    have : ∃ t ∈ p.jobs.running, (p.phase t.id).todo ≠ [] := by
      refine Classical.byContradiction fun hno => ?_
      have : (p.jobs.running.map fun t => (p.phase t.id).todo.length) = p.jobs.running.map fun _ => 0 := by
        refine List.map_congr_left fun t ht => ?_
        have : (p.phase t.id).todo = [] := Classical.byContradiction fun h => hno ⟨t, ht, h⟩
        simp [this]
      rw [this] at hm
      have h0 : ∀ l : List (Task Key), (l.map fun _ => 0).sum = 0 := by
        intro l; induction l <;> simp_all
      rw [h0] at hm
      omega
    obtain ⟨t, ht, htd⟩ := this
    cases hk : (p.phase t.id).todo with
    | nil => exact absurd hk htd
    | cons k ks =>
      obtain ⟨l1, l2, _⟩ := lookup_parts p.jobs k
      have st : PStep s W p _ _ := .worker (.spawn p t k ks ht hk)
      have hsum := sum_put (f := p.phase) (t := t) (x := { p.phase t.id with
            todo := ks, handles := (p.phase t.id).handles ++ [(p.jobs.lookup k).2.2] })
        (fun x => x.todo.length) hn ht
      simp only [hk, List.length_cons] at hsum
      obtain ⟨evs, p', h1, h2, h3, h4⟩ := ih
        ⟨(p.jobs.lookup k).1, put p.phase t.id { p.phase t.id with
            todo := ks, handles := (p.phase t.id).handles ++ [(p.jobs.lookup k).2.2] }⟩
        (by simp only [l1]; exact hn) (by simp only [l2]; exact hi)
        (by
          intro t' ht'
          simp only [l1] at ht'
          by_cases he : t'.id = t.id
          · rw [he]; simp only [put_self]; exact .inr (by simp)
          · simp only [put_ne _ _ he]; exact hp t' ht')
        (by simp only [l1]; omega)
      refine ⟨_, p', PRun.append (.snoc (.nil p) st) h1, ?_, h3, h4⟩
      simp only [l1] at h2
      exact h2

/-- `i` callers compact `i` different databases and `i` workers take up the jobs. -/
theorem start_all (i : Nat) (hi : i ≤ W) (hb : i < 2 ^ 64) :
    ∃ evs p, PRun s W Pool.new evs p ∧ evs.length = 2 * i ∧ p.jobs.queue = [] ∧
      p.jobs.running.length = i ∧ p.jobs.inbox = (fun _ => []) ∧ p.jobs.lastId = i ∧
      (p.jobs.running.map (·.id)).Nodup ∧ (∀ t ∈ p.jobs.running, t.id ≤ i) ∧
      (∀ j, i ≤ j → p.jobs.keyed (.compaction j .database) = none) ∧
      (∀ t ∈ p.jobs.running, (p.phase t.id).todo ≠ []) ∧
      ∀ j, j < i → ∃ id ch, Event.lookup (.compaction j .database) id ch ∈ evs := by
  induction i with
  | zero =>
    exact ⟨[], Pool.new, .nil _, rfl, rfl, rfl, rfl, rfl, by simp [Pool.new, St.new],
      by simp [Pool.new, St.new], by simp [Pool.new, St.new], by simp [Pool.new, St.new], by simp⟩
  | succ i ih =>
    obtain ⟨evs, p, h1, hl, h2, h3, h4, h5, h6, h7, h8, h9, h10⟩ := ih (by omega) (by omega)
    have hmod : (i + 1) % 2 ^ 64 = i + 1 := Nat.mod_eq_of_lt hb
    have hk : p.jobs.keyed (.compaction i .database) = none := h8 i (Nat.le_refl _)
    have hlk : (p.jobs.lookup (.compaction i .database)).1 =
        { lastId := i + 1
          senders := put p.jobs.senders (i + 1) (some ((p.jobs.senders (i + 1)).getD [] ++ [p.jobs.channels]))
          keyed := put p.jobs.keyed (.compaction i .database) (some (i + 1))
          queue := [⟨i + 1, some (.compaction i .database)⟩]
          running := p.jobs.running
          channels := p.jobs.channels + 1
          inbox := p.jobs.inbox } := by
      simp only [St.lookup, hk, St.enqueue, St.newHandle, h5, hmod, h2, List.nil_append]
    have st1 : PStep s W p _ _ := .call p (.compaction i .database)
    have st2 := WStep.start (s := s) (W := W) { p with jobs := (p.jobs.lookup (.compaction i .database)).1 }
      ⟨i + 1, some (.compaction i .database)⟩ [] (by rw [hlk]) (by rw [hlk]; simp only; omega)
    refine ⟨_, _, .snoc (.snoc h1 st1) (.worker st2), ?_, ?_, ?_, ?_, ?_, ?_, ?_, ?_, ?_, ?_⟩
    · simp only [List.length_append, Option.toList, List.length_cons, List.length_nil, hl]; omega
    · rfl
    · rw [hlk]; simp [h3]
    · rw [hlk]; exact h4
    · rw [hlk]
    · rw [hlk]
      simp only [List.map_append, List.map_cons, List.map_nil]
      refine List.nodup_append.2 ⟨h6, by simp, ?_⟩
      intro a ha b hb'
      simp only [List.mem_map] at ha
      obtain ⟨t, ht, rfl⟩ := ha
      simp only [List.mem_cons, List.not_mem_nil, or_false] at hb'
      have := h7 t ht
      omega
    · rw [hlk]
      intro t ht
      simp only [List.mem_append, List.mem_cons, List.not_mem_nil, or_false] at ht
      rcases ht with ht | rfl
      · have := h7 t ht; omega
      · exact Nat.le_refl _
    · rw [hlk]
      intro j hj
      simp only
      rw [put_ne _ _ (by simp; omega)]
      exact h8 j (by omega)
    · rw [hlk]
      intro t ht
      simp only [List.mem_append, List.mem_cons, List.not_mem_nil, or_false] at ht
      rcases ht with ht | rfl
      · have := h7 t ht
        simp only
        rw [put_ne _ _ (by omega)]
        exact h9 t ht
      · simp only [put_self, Schemas.kidsOf, Schemas.kids]
        simp
    · intro j hj
      by_cases hji : j = i
      · subst hji
        exact ⟨_, _, List.mem_append_left _ (List.mem_append_right _ (by
          simp only [Option.toList, List.mem_cons, List.not_mem_nil, or_false]; rfl))⟩
      · obtain ⟨id, ch, hm⟩ := h10 j (by omega)
        exact ⟨id, ch, List.mem_append_left _ (List.mem_append_left _ hm)⟩

/-- **C64 is violated** with any number of workers: if as many callers as there are workers compact as
many databases, there is a schedule after which no job ever ends again: none of these calls returns, and
neither does any other call that waits for a background job — in this storage, any query of a view that
is not up to date — whatever is called later. -/
theorem C64_violated_deadlock (s : Schemas) (W : Nat) (hW : 0 < W) (hb : W < 2 ^ 64) :
    ∃ evs p, PRun s W Pool.new evs p ∧
      (∀ db, db < W → ∃ id ch, Event.lookup (.compaction db .database) id ch ∈ evs) ∧
      ∀ evs' p', PRun s W p evs' p' → p'.Idle s W ∧ (∀ id r, Event.complete id r ∉ evs') ∧
        ∀ ch, p'.jobs.inbox ch = [] := by
  obtain ⟨evs, p, h1, _, h2, h3, h4, h5, h6, h7, h8, h9, h10⟩ := start_all (s := s) (W := W) W (Nat.le_refl _) hb
  obtain ⟨evs2, p2, g1, g2, g3, g4⟩ := spawn_all (s := s) (W := W) p h6 h4 fun t ht => .inl (h9 t ht)
  refine ⟨evs ++ evs2, p2, h1.append g1, ?_, ?_⟩
  · intro db hdb
    obtain ⟨id, ch, hm⟩ := h10 db hdb
    exact ⟨id, ch, List.mem_append_left _ hm⟩
  · intro evs' p' hr
    have hstuck : p2.Stuck W := by
      refine ⟨by rw [g2]; exact h3, fun t ht => ?_⟩
      obtain ⟨a, b⟩ := g4 t ht
      refine ⟨a, ?_⟩
      cases hh : (p2.phase t.id).handles with
      | nil => exact absurd hh b
      | cons x xs => exact ⟨x, xs, rfl, by rw [g3]⟩
    obtain ⟨a, _, c, d⟩ := stuck_forever hstuck hr
    exact ⟨stuck_idle a, d, fun ch => by rw [c, g3]⟩

/-- With one worker: what a running compaction of a database or collection looks like. -/
theorem one_worker_inv {evs : List (Event Key Bool)} {p : Pool} (h : PRun s 1 Pool.new evs p)
    (hlen : evs.length < 2 ^ 64) :
    (∀ t ∈ p.jobs.running, s.kidsOf t ≠ [] →
      ((p.phase t.id).todo ≠ [] ∨ (p.phase t.id).handles ≠ []) ∧
        ∀ x ∈ (p.phase t.id).handles, p.jobs.inbox x = []) ∧
    ∀ k id ch, Event.lookup k id ch ∈ evs → s.kids k ≠ [] → results evs id = [] := by
  generalize hn : Pool.new = p0 at h
  induction h with
  | nil => subst hn; exact ⟨by simp [Pool.new, St.new], by simp⟩
  | snoc h st ih =>
    rename_i p1 p2 es e
    have hlen' : es.length < 2 ^ 64 := by simp only [List.length_append] at hlen; omega
    obtain ⟨ih1, ih2⟩ := ih hlen'
    subst hn
    have hinv : PInv s 1 es p1 := pinv_run h hlen'
    have hinv2 : PInv s 1 (es ++ e.toList) p2 := pinv_step hinv hlen st
    -- a lookup, by a caller or a job
    have hres : ∀ k, (e = some (.lookup k (p1.jobs.lookup k).2.1 (p1.jobs.lookup k).2.2)) →
        ∀ k' id ch, Event.lookup k' id ch ∈ es ++ e.toList → s.kids k' ≠ [] →
          results (es ++ e.toList) id = [] := by
      rintro k rfl k' id ch hm hk
      have hnil : ∀ id, results [Event.lookup k (p1.jobs.lookup k).2.1 (p1.jobs.lookup k).2.2] id = ([] : List Bool) := by
        intro id; simp [results]
      simp only [Option.toList]
      rw [results_append, hnil, List.append_nil]
      rcases List.mem_append.1 hm with hm | hm
      · exact ih2 k' id ch hm hk
      · simp only [Option.toList, List.mem_cons, Event.lookup.injEq, List.not_mem_nil, or_false] at hm
        obtain ⟨rfl, rfl, rfl⟩ := hm
        rcases (lookup_parts p1.jobs k').2.2 with ⟨i, hk', hi, _⟩ | ⟨hk', hi, _⟩
        · rw [hi]
          obtain ⟨ha, ch', hl⟩ := hinv.inv.keyedActive k' i hk'
          exact ih2 k' i ch' hl hk
        · rw [hi]
          refine (hinv.inv.unborn _ ?_).1
          have := hinv.inv.small
          simp only [Option.toList, List.length_append, List.length_cons, List.length_nil] at hlen
          rw [Nat.mod_eq_of_lt (by omega)]; omega
    cases st with
    | call k =>
      obtain ⟨l1, l2, _⟩ := lookup_parts p1.jobs k
      refine ⟨?_, hres k rfl⟩
      intro t ht hk
      simp only [l1] at ht
      simp only [l2]
      exact ih1 t ht hk
    | worker st =>
      cases st with
      | start t q hq hw =>
        have hr0 : p1.jobs.running = [] := List.eq_nil_of_length_eq_zero (by omega)
        refine ⟨?_, ?_⟩
        · intro t' ht' hk
          simp only [hr0, List.nil_append, List.mem_cons, List.not_mem_nil, or_false] at ht'
          subst ht'
          simp only [put_self]
          exact ⟨.inl hk, by simp⟩
        · intro k id ch hm hk
          simp only [Option.toList] at hm ⊢
          rw [results_append]
          simp only [List.mem_append, List.mem_cons, List.not_mem_nil, or_false, reduceCtorEq] at hm
          rw [ih2 k id ch hm hk]
          simp [results]
      | spawn t k ks ht hp =>
        obtain ⟨l1, l2, _⟩ := lookup_parts p1.jobs k
        refine ⟨?_, hres k rfl⟩
        intro t' ht' hk
        simp only [l1] at ht'
        have hother : t'.id = t.id := by
          have hl := hinv.len
          match hrr : p1.jobs.running, hl with
          | [], _ => rw [hrr] at ht; simp at ht
          | [a], _ =>
            rw [hrr] at ht ht'
            simp only [List.mem_cons, List.not_mem_nil, or_false] at ht ht'
            rw [ht, ht']
        rw [hother]
        simp only [put_self]
        refine ⟨.inr (by simp), ?_⟩
        intro x hx
        simp only [l2]
        rcases List.mem_append.1 hx with hx | hx
        · exact (ih1 t' ht' hk).2 x (by rw [hother]; exact hx)
        · simp only [List.mem_cons, List.not_mem_nil, or_false] at hx
          subst hx
          have := C44_fresh_handle_waits es p1.jobs _ (prun_run (p := Pool.new) h)
            (by simp only [Option.toList, List.length_append, List.length_cons, List.length_nil] at hlen; omega)
            _ (p1.jobs.lookup k).2.1 (p1.jobs.lookup k).2.2 (.lookup p1.jobs k)
            (.inl ⟨k, by simp⟩)
          rwa [l2] at this
      | receive t x xs r rest ht hd hp hr =>
        exfalso
        have hk : s.kidsOf t ≠ [] := by
          obtain ⟨k, id, hk, _⟩ := hinv.handles t ht x (by rw [hp]; simp)
          intro h0; rw [h0] at hk; simp at hk
        rw [(ih1 t ht hk).2 x (by rw [hp]; simp)] at hr
        cases hr
      | complete t r pre post hr hd hp hres' =>
        obtain ⟨c1, c2⟩ := completed_parts { p1.jobs with running := pre ++ post } t r
        simp only at c1 c2
        have ht : t ∈ p1.jobs.running := by rw [hr]; simp
        have hk : s.kidsOf t = [] := Classical.byContradiction fun hk => by
          rcases (ih1 t ht hk).1 with h0 | h0
          · exact h0 hd
          · exact h0 hp
        have hnil : pre ++ post = [] := by
          have := hinv.len
          rw [hr] at this
          simp only [List.length_append, List.length_cons] at this
          exact List.eq_nil_of_length_eq_zero (by simp only [List.length_append]; omega)
        refine ⟨?_, ?_⟩
        · intro t' ht'
          rw [c1, hnil] at ht'
          simp at ht'
        · intro k id ch hm hk'
          simp only [Option.toList] at hm ⊢
          rw [results_append]
          simp only [List.mem_append, List.mem_cons, List.not_mem_nil, or_false, reduceCtorEq] at hm
          rw [ih2 k id ch hm hk']
          have hne : t.id ≠ id := by
            intro he
            have := hinv.keyOf k id ch hm t (running_active ht) he
            simp only [Schemas.kidsOf, this] at hk
            exact hk' hk
          simp [results, hne]

/-- **C64 is violated** with one worker (`worker_count: 1`) by a single call: `compact` and
`compact_collection` never return, whatever the schedule and whatever else happens. -/
theorem C64_violated_one_worker (s : Schemas) (evs : List (Event Key Bool)) (p : Pool)
    (h : PRun s 1 Pool.new evs p) (hlen : evs.length < 2 ^ 64) (db id ch : Nat) (k : Key)
    (hk : k = .compaction db .database ∨ ∃ c, k = .compaction db (.collection c))
    (hm : Event.lookup k id ch ∈ evs) : p.jobs.inbox ch = [] := by
  have hne : s.kids k ≠ [] := by
    rcases hk with rfl | ⟨c, rfl⟩
    · simp [Schemas.kids]
    · simp [Schemas.kids, Schemas.gather]
  have hr := (one_worker_inv h hlen).2 k id ch hm hne
  rw [(C44_handle_receives_its_jobs_result evs p.jobs (prun_run (p := Pool.new) h) hlen id ch
    (.inl ⟨k, hm⟩)).1]
  exact hr

/-! ## Non-vacuity -/
section Example

/-- One database with one collection with one view. -/
def exSchemas : Schemas := ⟨fun _ => [5], fun _ _ => [9]⟩

example : exSchemas.kids (.compaction 0 .database) =
    [.compaction 0 (.versionedTree (.documents 5)), .compaction 0 (.unversionedTree (.viewVersions 5)),
      .compaction 0 (.unversionedTree (.viewEntries 9)), .compaction 0 (.unversionedTree (.viewDocumentMap 9)),
      .compaction 0 (.unversionedTree (.viewInvalidated 9)), .compaction 0 .keyValue] := by decide

/-- A state with one compaction of a database and two workers meets the hypotheses of
`C64_compaction_terminates_partial`. -/
example : ∃ evs p, PRun exSchemas 2 Pool.new evs p ∧ evs.length + p.work exSchemas < 2 ^ 64 ∧
    p.groups.length < 2 ∧ p.groups.length = 1 := by
  refine ⟨_, _, .snoc (.nil _) (.call Pool.new (.compaction 0 .database)), ?_, ?_, ?_⟩
  · decide
  · decide
  · decide

/-- A successful compaction of a collection is reachable (here: without a schema's views). -/
example : ∃ evs p p' t, PRun (⟨fun _ => [], fun _ _ => []⟩ : Schemas) 2 Pool.new evs p ∧
    t ∈ p.jobs.running ∧ t.key = some (.compaction 0 .database) ∧
    WStep (⟨fun _ => [], fun _ _ => []⟩ : Schemas) 2 p (some (.complete t.id true)) p' := by
  refine ⟨_, _, _, ⟨1, some (.compaction 0 .database)⟩, .snoc (.snoc (.snoc (.snoc (.snoc (.snoc (.nil _)
    (.call Pool.new (.compaction 0 .database)))
    (.worker (.start _ ⟨1, some (.compaction 0 .database)⟩ [] rfl (by decide))))
    (.worker (.spawn _ ⟨1, some (.compaction 0 .database)⟩ (.compaction 0 .keyValue) [] (by decide) rfl)))
    (.worker (.start _ ⟨2, some (.compaction 0 .keyValue)⟩ [] rfl (by decide))))
    (.worker (.complete _ ⟨2, some (.compaction 0 .keyValue)⟩ true [⟨1, some (.compaction 0 .database)⟩] [] rfl rfl rfl (.inl rfl))))
    (.worker (.receive _ ⟨1, some (.compaction 0 .database)⟩ 1 [] true [] (by decide) rfl rfl rfl)),
    by decide, rfl, .complete _ ⟨1, some (.compaction 0 .database)⟩ true [] [] rfl rfl rfl (.inr rfl)⟩

end Example

end Bonsai.Jobs
