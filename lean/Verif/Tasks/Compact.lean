import Verif.Tasks.C44

/-!
# C64: compaction jobs and the worker threads

`crates/bonsaidb-local/src/tasks/compactor.rs`, `tasks.rs:196-231`, `tasks/manager.rs:60-76`,
`storage.rs:278-280`.

The job manager of C44 (`Verif/Tasks/Jobs.lean`) with a fixed number of worker threads, and with jobs
that wait for other jobs.  The compaction of a database or of a collection is a job that puts one job per
tree into the same queue and then waits for their results, in order.  All other jobs (the compaction of
one tree, view mapping, integrity scans, loading expirations) wait for no job.

Simplifications: a job that panics is left out (C44); what a tree compaction does to the tree is in C65.
-/
set_option linter.unusedSimpArgs false
set_option linter.unusedSectionVars false
set_option linter.unusedVariables false

namespace Bonsai.Jobs

/-- The trees of a collection: names of `document_tree_name`, `view_versions_tree_name`,
`view_entries_tree_name`, `view_document_map_tree_name`, `view_invalidated_docs_tree_name`
(database.rs, views.rs), with collections and views numbered. -/
inductive Tree where
  | documents (collection : Nat)
  | viewVersions (collection : Nat)
  | viewEntries (view : Nat)
  | viewDocumentMap (view : Nat)
  | viewInvalidated (view : Nat)
  deriving DecidableEq

/-- `Target`, compactor.rs:51-58. -/
inductive Target where
  | versionedTree (name : Tree)
  | unversionedTree (name : Tree)
  | collection (name : Nat)
  | keyValue
  | database
  deriving DecidableEq

/-- `Task`, task.rs:8-14: a compaction (compactor.rs:45-49) of a target in a database, or one of the
other jobs. -/
inductive Key where
  | compaction (database : Nat) (target : Target)
  | other (n : Nat)
  deriving DecidableEq

/-- The schemas of the databases: their collections, and the views of a collection. -/
structure Schemas where
  collections : (database : Nat) → List Nat
  views : (database collection : Nat) → List Nat

/-- `gather_collection_trees`, compactor.rs:99-115. -/
def Schemas.gather (s : Schemas) (db c : Nat) : List Target :=
  [.versionedTree (.documents c), .unversionedTree (.viewVersions c)] ++
    (s.views db c).flatMap fun v => [.unversionedTree (.viewEntries v),
      .unversionedTree (.viewDocumentMap v), .unversionedTree (.viewInvalidated v)]

/-- The jobs that a job spawns and waits for: `Target::compact`, compactor.rs:61-82. -/
def Schemas.kids (s : Schemas) : Key → List Key
  | .compaction db (.collection c) => (s.gather db c).map (.compaction db)
  | .compaction db .database =>
    ((s.collections db).flatMap (s.gather db) ++ [Target.keyValue]).map (.compaction db)
  | _ => []

/-- A running job: what it has still to spawn, the handles it has still to wait for, and whether all
results received so far are `Ok` (`compact_trees`, compactor.rs:117-134). -/
structure Phase where
  todo : List Key
  handles : List Nat
  ok : Bool

/-- The manager, and the progress of the running jobs (by id).  Results are `true` for `Ok`. -/
structure Pool where
  jobs : St Key Bool
  phase : Nat → Phase

/-- `Manager::default`, no job has run. -/
def Pool.new : Pool := ⟨St.new, fun _ => ⟨[], [], true⟩⟩

/-- The kids of a task (only keyed jobs exist: `enqueue` without a key is for tests). -/
def Schemas.kidsOf (s : Schemas) (t : Task Key) : List Key :=
  match t.key with
  | some k => s.kids k
  | none => []

/-- What a worker thread does next (`W` threads, storage.rs:278-280).  `none`: nothing visible to the
job manager. -/
inductive WStep (s : Schemas) (W : Nat) : Pool → Option (Event Key Bool) → Pool → Prop where
  /-- An idle worker takes the next job, manager.rs:71-75. -/
  | start (p : Pool) (t : Task Key) (q : List (Task Key)) (hq : p.jobs.queue = t :: q)
      (hw : p.jobs.running.length < W) :
      WStep s W p (some (.start t.id))
        ⟨{ p.jobs with queue := q, running := p.jobs.running ++ [t] },
          put p.phase t.id ⟨s.kidsOf t, [], true⟩⟩
  /-- `spawn_compact_target` for the next tree, compactor.rs:119-129. -/
  | spawn (p : Pool) (t : Task Key) (k : Key) (ks : List Key) (ht : t ∈ p.jobs.running)
      (hp : (p.phase t.id).todo = k :: ks) :
      WStep s W p (some (.lookup k (p.jobs.lookup k).2.1 (p.jobs.lookup k).2.2))
        ⟨(p.jobs.lookup k).1,
          put p.phase t.id { p.phase t.id with
            todo := ks, handles := (p.phase t.id).handles ++ [(p.jobs.lookup k).2.2] }⟩
  /-- `handle.receive()??`, compactor.rs:131-133: an error ends the loop. -/
  | receive (p : Pool) (t : Task Key) (h : Nat) (hs : List Nat) (r : Bool) (rest : List Bool)
      (ht : t ∈ p.jobs.running) (hd : (p.phase t.id).todo = []) (hp : (p.phase t.id).handles = h :: hs)
      (hr : p.jobs.inbox h = r :: rest) :
      WStep s W p none
        { p with phase := put p.phase t.id (if r then ⟨[], hs, (p.phase t.id).ok⟩ else ⟨[], [], false⟩) }
  /-- `ManagedJob::execute` returns, managed_job.rs:21-26.  A job that waited for others returns what
  it received; any other job returns anything. -/
  | complete (p : Pool) (t : Task Key) (r : Bool) (pre post : List (Task Key))
      (hr : p.jobs.running = pre ++ t :: post) (hd : (p.phase t.id).todo = [])
      (hp : (p.phase t.id).handles = []) (hres : s.kidsOf t = [] ∨ r = (p.phase t.id).ok) :
      WStep s W p (some (.complete t.id r))
        { p with jobs := { p.jobs with running := pre ++ post }.completed t r }

/-- A step of the whole system: a worker's, or a caller asking for a job (`compact`, a view query, …;
`lookup_or_enqueue`, manager.rs:40-46). -/
inductive PStep (s : Schemas) (W : Nat) : Pool → Option (Event Key Bool) → Pool → Prop where
  | worker {p p' : Pool} {e : Option (Event Key Bool)} (h : WStep s W p e p') : PStep s W p e p'
  | call (p : Pool) (k : Key) :
      PStep s W p (some (.lookup k (p.jobs.lookup k).2.1 (p.jobs.lookup k).2.2))
        { p with jobs := (p.jobs.lookup k).1 }

/-- Any number of steps of the whole system, with the events they cause. -/
inductive PRun (s : Schemas) (W : Nat) : Pool → List (Event Key Bool) → Pool → Prop where
  | nil (p : Pool) : PRun s W p [] p
  | snoc {p p' p'' : Pool} {evs : List (Event Key Bool)} {e : Option (Event Key Bool)}
      (h : PRun s W p evs p') (st : PStep s W p' e p'') : PRun s W p (evs ++ e.toList) p''

/-- Any number of steps of the workers only. -/
inductive WRun (s : Schemas) (W : Nat) : Pool → Nat → Pool → Prop where
  | nil (p : Pool) : WRun s W p 0 p
  | snoc {p p' p'' : Pool} {n : Nat} {e : Option (Event Key Bool)} (h : WRun s W p n p')
      (st : WStep s W p' e p'') : WRun s W p (n + 1) p''

/-! ## Specification -/

/-- The task waits for other tasks: the compaction of a database or of a collection. -/
def Task.IsGroup (t : Task Key) : Prop :=
  ∃ db, t.key = some (.compaction db .database) ∨ ∃ c, t.key = some (.compaction db (.collection c))

instance (t : Task Key) : Decidable t.IsGroup :=
  match h : t.key with
  | some (.compaction db .database) => .isTrue ⟨db, .inl h⟩
  | some (.compaction db (.collection c)) => .isTrue ⟨db, .inr ⟨c, h⟩⟩
  | some (.compaction db (.versionedTree _)) => .isFalse (by rintro ⟨_, h' | ⟨_, h'⟩⟩ <;> simp [h] at h')
  | some (.compaction db (.unversionedTree _)) => .isFalse (by rintro ⟨_, h' | ⟨_, h'⟩⟩ <;> simp [h] at h')
  | some (.compaction db .keyValue) => .isFalse (by rintro ⟨_, h' | ⟨_, h'⟩⟩ <;> simp [h] at h')
  | some (.other _) => .isFalse (by rintro ⟨_, h' | ⟨_, h'⟩⟩ <;> simp [h] at h')
  | none => .isFalse (by rintro ⟨_, h' | ⟨_, h'⟩⟩ <;> simp [h] at h')

/-- No worker can do anything. -/
def Pool.Idle (s : Schemas) (W : Nat) (p : Pool) : Prop := ∀ e p', ¬ WStep s W p e p'

/-! ## Basic facts -/

variable {s : Schemas} {W : Nat}

theorem kids_not_group {t : Task Key} (h : ¬ t.IsGroup) : s.kidsOf t = [] := by
  unfold Schemas.kidsOf
  cases hk : t.key with
  | none => rfl
  | some k =>
    cases k with
    | other n => rfl
    | compaction db target =>
      cases target with
      | versionedTree n => rfl
      | unversionedTree n => rfl
      | keyValue => rfl
      | collection c => exact absurd ⟨db, .inr ⟨c, hk⟩⟩ h
      | database => exact absurd ⟨db, .inl hk⟩ h

/-- The spawned jobs wait for nothing. -/
theorem kids_leaf {t : Task Key} {k : Key} (h : k ∈ s.kidsOf t) (t' : Task Key) (hk : t'.key = some k) :
    ¬ t'.IsGroup := by
  have key : ∀ db (x : Target), x ≠ .database → (∀ c, x ≠ .collection c) → k = .compaction db x →
      ¬ t'.IsGroup := by
    rintro db x h1 h2 rfl ⟨db', h' | ⟨c, h'⟩⟩
    · rw [hk] at h'; simp at h'; exact h1 h'.2
    · rw [hk] at h'; simp at h'; exact h2 c h'.2
  have hg : ∀ db c x, x ∈ s.gather db c → x ≠ .database ∧ ∀ c, x ≠ .collection c := by
    intro db c x hx
    simp only [Schemas.gather, List.mem_append, List.mem_cons, List.mem_flatMap, List.not_mem_nil,
      or_false] at hx
    rcases hx with (rfl | rfl) | ⟨v, _, rfl | rfl | rfl⟩ <;> simp
  unfold Schemas.kidsOf at h
  cases hk' : t.key with
  | none => simp [hk'] at h
  | some k' =>
    simp only [hk'] at h
    cases k' with
    | other n => simp [Schemas.kids] at h
    | compaction db target =>
      cases target with
      | versionedTree n => simp [Schemas.kids] at h
      | unversionedTree n => simp [Schemas.kids] at h
      | keyValue => simp [Schemas.kids] at h
      | collection c =>
        simp only [Schemas.kids, List.mem_map] at h
        obtain ⟨x, hx, rfl⟩ := h
        exact key db x (hg db c x hx).1 (hg db c x hx).2 rfl
      | database =>
        simp only [Schemas.kids, List.mem_map, List.mem_append, List.mem_flatMap, List.mem_cons,
          List.not_mem_nil, or_false] at h
        obtain ⟨x, ⟨c, _, hx⟩ | rfl, rfl⟩ := h
        · exact key db x (hg db c x hx).1 (hg db c x hx).2 rfl
        · exact key db .keyValue (by simp) (by simp) rfl

/-- Every run of the pool is a run of the job manager (C44). -/
theorem pstep_run {p p' : Pool} {e : Option (Event Key Bool)} (h : PStep s W p e p')
    {evs : List (Event Key Bool)} {a : St Key Bool} (hr : Run a evs p.jobs) :
    Run a (evs ++ e.toList) p'.jobs := by
  cases h with
  | call k => exact .snoc hr (.lookup p.jobs k)
  | worker h =>
    cases h with
    | start t q hq hw => exact .snoc hr (.start p.jobs t q hq)
    | spawn t k ks ht hp => exact .snoc hr (.lookup p.jobs k)
    | receive t h hs r rest ht hd hp hr' => simpa using hr
    | complete t r pre post hr' hd hp hres => exact .snoc hr (.complete p.jobs t r pre post hr')

theorem prun_run {evs : List (Event Key Bool)} {p p' : Pool} (h : PRun s W p evs p') :
    Run p.jobs evs p'.jobs := by
  induction h with
  | nil => exact .nil _
  | snoc h st ih => exact pstep_run st ih

theorem not_panicked {evs : List (Event Key Bool)} {p p' : Pool} (h : PRun s W p evs p') (id : Nat) :
    ¬ Panicked evs id := by
  induction h with
  | nil => simp [Panicked]
  | snoc h st ih =>
    unfold Panicked at ih ⊢
    intro hm
    rcases List.mem_append.1 hm with hm | hm
    · exact ih hm
    · cases st with
      | call k => simp at hm
      | worker h => cases h <;> simp at hm

end Bonsai.Jobs
