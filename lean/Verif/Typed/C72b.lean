import Verif.Typed.C72

/-!
# C72: counting, retries, `refresh`
-/
set_option linter.unusedSimpArgs false
set_option linter.unusedVariables false

namespace Bonsai.Typed
open Bonsai Bonsai.Names Bonsai.Query Bonsai.Store

variable {s : Schema} {C : Coll} {first : Option C.key.T} {next : C.key.T → Option C.key.T}
variable {S : Bytes → Prop} {db : Db} {R : Type}

/-- A call that may replace or remove the document of a key. -/
def Replaces (k : C.key.T) : TCall C → Prop
  | .overwrite j _ => j = k
  | .update d => d.header.id = k
  | .delete h => h.id = k
  | _ => False

theorem insertSpec_keeps {dg} {m m' : TMap C} {j k x r v} (h : InsertSpec dg C m j x r m')
    (hk : m k = some v) : m' k = some v := by
  cases h with
  | ok hn _ hc =>
    rw [hc.2 k (fun e => by subst e; rw [hn] at hk; cases hk)]
    exact hk
  | conflict _ _ _ => exact hk

theorem pushSpec_keeps {dg} {m m' : TMap C} {k x r v} (h : PushSpec dg C first next m x r m')
    (hk : m k = some v) : m' k = some v := by
  cases h with
  | natural _ h => exact insertSpec_keeps h hk
  | auto _ _ h => exact insertSpec_keeps h hk
  | noKey _ _ => exact hk

theorem pushAllSpec_keeps {dg} {m m' : TMap C} {k xs r v} (h : PushAllSpec dg C first next m xs r m')
    (hk : m k = some v) : m' k = some v := by
  induction h with
  | nil _ => exact hk
  | cons h _ ih => exact ih (pushSpec_keeps h hk)
  | fail h => exact pushSpec_keeps h hk
  | later h _ ih => exact ih (pushSpec_keeps h hk)

theorem writeSpec_keeps {dg} {m m' : TMap C} {j k n y x r v} (h : WriteSpec dg C m j n y x r m')
    (hj : j ≠ k) (hk : m k = some v) : m' k = some v := by
  cases h with
  | same _ _ => exact hk
  | changed _ _ _ hc => rw [hc.2 k (Ne.symm hj)]; exact hk
  | exhausted _ _ => exact hk

theorem tspec_keeps {m m' : TMap C} {k c r v} (h : TSpec s C first next m c r m')
    (hc : ¬ Replaces k c) (hk : m k = some v) : m' k = some v := by
  cases h with
  | badKey _ _ _ => exact hk
  | badContents _ _ _ => exact hk
  | rejected _ _ => exact hk
  | push h => exact pushSpec_keeps h hk
  | pushAll h => exact pushAllSpec_keeps h hk
  | pushAllFail _ => exact hk
  | insert h => exact insertSpec_keeps h hk
  | overwriteNew _ h => exact insertSpec_keeps h hk
  | overwrite _ h => exact writeSpec_keeps h hc hk
  | updateMissing _ _ => exact hk
  | update _ _ h => exact writeSpec_keeps h hc hk
  | updateStale _ _ _ _ => exact hk
  | deleteMissing _ _ => exact hk
  | delete _ _ h => rw [h.2 k (Ne.symm hc)]; exact hk
  | deleteStale _ _ _ _ => exact hk
  | getMissing _ => exact hk
  | get _ _ => exact hk
  | getMultiple _ _ => exact hk
  | list _ => exact hk
  | headers _ _ => exact hk
  | count _ => exact hk

/-- A `modify` of `k` returned successfully. -/
def SucceedsAt (k : C.key.T) : Out C R → Prop
  | .finished (.ok _) self => self.header.id = k
  | _ => False

/-- Every event keeps to counting: `modify` of `k` adds one, nothing else replaces `k`. -/
def CountsAt (μ : C.Contents → Nat) (k : C.key.T) : Ev C R → Prop
  | .start _ f d => d.header.id = k → ∀ n d', μ (f n d').1.contents = μ d'.contents + 1
  | .step _ _ => True
  | .env (.call _ c) => ¬ Replaces k c
  | .env (.other _ _) => True

open Classical in
theorem wspecAll_counts {μ : C.Contents → Nat} {k : C.key.T} {m : TMap C} {js : Jobs C R} {es os m' js'}
    (h : WSpecAll s C first next m js es os m' js') (he : ∀ e ∈ es, CountsAt μ k e)
    (hj : ∀ i f, js i = some (f, k) → ∀ n d', μ (f n d').1.contents = μ d'.contents + 1) {v}
    (hk : m k = some v) :
    ∃ n x, m' k = some (n, x) ∧ μ x = μ v.2 + os.countP (fun o => decide (SucceedsAt k o)) := by
  induction h generalizing v with
  | nil m js => exact ⟨v.1, v.2, hk, by simp⟩
  | @cons m js e o m1 js1 es os m2 js2 hstep _ ih =>
    have he1 := he e List.mem_cons_self
    have he2 : ∀ e ∈ es, CountsAt μ k e := fun e h => he e (List.mem_cons_of_mem _ h)
    have none_ok : ∀ i i' f, setAt js i none i' = some (f, k) →
        ∀ n d', μ (f n d').1.contents = μ d'.contents + 1 := by
      intro i i' f hs
      by_cases hi : i' = i
      · subst hi; rw [setAt_same] at hs; cases hs
      · rw [setAt_ne hi] at hs; exact hj i' f hs
    have quiet : ¬ SucceedsAt k o → m1 k = some v →
        (∀ i f, js1 i = some (f, k) → ∀ n d', μ (f n d').1.contents = μ d'.contents + 1) →
        ∃ n x, m2 k = some (n, x) ∧
          μ x = μ v.2 + (o :: os).countP (fun o => decide (SucceedsAt k o)) := by
      intro h1 h2 h3
      obtain ⟨n, x, g1, g2⟩ := ih he2 h3 h2
      exact ⟨n, x, g1, by rw [g2, List.countP_cons_of_neg (by simp [h1])]⟩
    cases hstep with
    | @start i f d =>
      refine quiet (fun h => h) hk ?_
      intro i' f' hs
      by_cases hi : i' = i
      · subst hi
        rw [setAt_same] at hs
        cases hs
        exact he1 rfl
      · rw [setAt_ne hi] at hs; exact hj i' f' hs
    | idle _ => exact quiet (fun h => h) hk hj
    | running _ => exact quiet (fun h => h) hk hj
    | @modified i tid f j r self _ hji hm =>
      obtain ⟨a, n, x, rev, y, m1', m2', m3, m4⟩ := hm
      have hself : self.header.id = j := by
        cases m4 with
        | same _ hd => exact hd.1
        | changed _ _ hd _ => exact hd.1
      by_cases hjk : j = k
      · subst hjk
        have hf := hj i f hji a ⟨⟨j, rev⟩, x⟩
        rw [m3] at hf
        simp only at hf
        rw [hk] at m1'
        cases m1'
        have hm1 : ∃ n', m1 j = some (n', y) := by
          cases m4 with
          | same hxy _ => subst hxy; omega
          | changed _ _ _ hc => exact ⟨_, hc.1⟩
        obtain ⟨n', hm1⟩ := hm1
        obtain ⟨n2, x2, g1, g2⟩ := ih he2 (none_ok i) hm1
        refine ⟨n2, x2, g1, ?_⟩
        rw [g2, List.countP_cons_of_pos (by simp [SucceedsAt, hself])]
        simp only at hf ⊢
        omega
      · refine quiet (fun h => hjk (by rw [← hself]; exact h)) (writeSpec_keeps m4 hjk hk) (none_ok i)
    | failed _ _ => exact quiet (fun h => h) hk (none_ok _)
    | call h => exact quiet (fun h => h) (tspec_keeps h he1 hk) hj
    | other => exact quiet (fun h => h) hk hj

open Classical in
/-- **C72.** Counting: however many `modify` calls that add one run concurrently, with whatever other
calls that do not replace the document, the counter ends up larger by exactly the number of calls that
returned successfully. -/
theorem C72_counter (s : Schema) (C : Coll) (first : Option C.key.T)
    (next : C.key.T → Option C.key.T) (hl : Lawful s C first next) (S : Bytes → Prop)
    (hS : CollisionFree s.digest S) (dflt : CHeader C.key) (R : Type) (pre : List (Event C))
    (es : List (Ev C R)) (hpre : EventsIn S C pre) (hes : ∀ e ∈ es, EvIn S s.digest C e)
    (μ : C.Contents → Nat) (k : C.key.T) (hc : ∀ e ∈ es, CountsAt μ k e) (d0 : CDoc C)
    (h0 : get C (runAll s C dflt .empty pre).2 k = .ok (some d0)) :
    ∃ d, get C (exec s C dflt ⟨(runAll s C dflt .empty pre).2, fun _ => none⟩ es).2.db k = .ok (some d) ∧
      μ d.contents = μ d0.contents +
        (exec s C dflt ⟨(runAll s C dflt .empty pre).2, fun _ => none⟩ es).1.countP
          (fun o => decide (SucceedsAt k o)) := by
  obtain ⟨h1, h2, -⟩ := runAll_refines hS hl dflt pre .empty .empty wellTyped_empty hpre
  generalize (runAll s C dflt .empty pre).2 = db at h1 h2 h0 ⊢
  obtain ⟨js, g1, g2⟩ := exec_refines (w := ⟨db, fun _ => none⟩) (R := R) hS hl dflt es
    (fun _ => none) ⟨h1, h2, fun _ => rfl⟩ hes
  have hm : ∃ n, mapOf C db.trees.abs k = some (n, d0.contents) := by
    obtain ⟨s1, s2⟩ := getShows hS hl h1 h2
    cases hmk : mapOf C db.trees.abs k with
    | none =>
      rcases s2 k hmk with ⟨e, he⟩ | he
      · have : ∃ e, documentId C.key k = .error e := by
          cases hd : documentId C.key k with
          | error e => exact ⟨e, rfl⟩
          | ok id =>
            obtain ⟨i1, i2⟩ := documentId_ok.mp hd
            cases he with
            | noEncoding h => rw [h] at i1; cases i1
            | tooLong h hlen => rw [h] at i1; cases i1; exact absurd i2 (by simpa [DocId.MAX_LENGTH] using hlen)
        obtain ⟨e', he'⟩ := this
        simp only [get, he'] at h0
        cases h0
      · rw [he] at h0; cases h0
    | some v =>
      obtain ⟨n, x⟩ := v
      obtain ⟨d, e1, e2⟩ := s1 k n x hmk
      rw [e1] at h0
      cases h0
      exact ⟨n, by rw [e2.2.1]⟩
  obtain ⟨n, hm⟩ := hm
  obtain ⟨n', x', q1, q2⟩ := wspecAll_counts g2 hc (by intro i f h; cases h) hm
  obtain ⟨d, e1, e2⟩ := (getShows hS hl g1.1 g1.2.1).1 k n' x' q1
  exact ⟨d, e1, by rw [e2.2.1]; exact q2⟩

/-! ## Retries -/

theorem exec_task {dflt : CHeader C.key} {i : Nat} : ∀ (es : List (Ev C R)) (w : World C R),
    (∀ e ∈ es, match e with | .start j _ _ => j ≠ i | .step j _ => j ≠ i | .env _ => True) →
    (exec s C dflt w es).2.tasks i = w.tasks i := by
  intro es
  induction es with
  | nil => intro w _; rfl
  | cons e es ih =>
    intro w h
    have h1 := h e List.mem_cons_self
    have := ih (stepWorld s C dflt w e).2 fun e he => h e (List.mem_cons_of_mem _ he)
    simp only [exec]
    rw [this]
    cases e with
    | start j f d => exact setAt_ne (Ne.symm h1)
    | step j tid =>
      simp only [stepWorld, stepTask]
      cases ht : w.tasks j with
      | none => rfl
      | some t =>
        obtain ⟨f, ph⟩ := t
        simp only
        rcases stepModify s C f w.db tid ph with ⟨o, db'⟩
        cases o with
        | running ph' => exact setAt_ne (Ne.symm h1)
        | finished r d => exact setAt_ne (Ne.symm h1)
    | env e => rfl

theorem get_shows (hS : CollisionFree s.digest S) (hl : Lawful s C first next) (hr : Reachable s S db)
    (ht : WellTyped C db.trees.abs) {k} {d : CDoc C} (h : get C db k = .ok (some d)) :
    d.header.id = k ∧ Shows s.digest C (mapOf C db.trees.abs) d := by
  unfold get at h
  cases hd : documentId C.key k with
  | error e => rw [hd] at h; cases h
  | ok id =>
    rw [hd] at h
    simp only at h
    cases hg : getDoc db C.name id with
    | none => rw [hg] at h; cases h
    | some doc =>
      rw [hg] at h
      simp only at h
      obtain ⟨cd, h1, h2, h3, h4⟩ := shown_of_stored hl (hr.wf hS) ht hg
      rw [h1] at h
      cases h
      exact ⟨documentId_inj hl.key h2 hd, h4⟩

/-- An update with the revision shown is no conflict. -/
theorem update_no_conflict (hS : CollisionFree s.digest S) (hl : Lawful s C first next)
    (hr : Reachable s S db) (ht : WellTyped C db.trees.abs) {g d : CDoc C} {tid : Nat}
    (hg : Shows s.digest C (mapOf C db.trees.abs) g) (hh : d.header = g.header)
    (hx : ∀ b, C.serialize d.contents = some b → S b) (c h) :
    (update s C db tid d).1 ≠ .error (.db (.conflict c h)) := by
  intro hu
  obtain ⟨g1, g2, g3, g4⟩ := good_update (first := first) (next := next) hS hl hr ht (tid := tid) (d := d) hx
  rw [hu] at g3
  simp only [wrap] at g3
  obtain ⟨n, k1, b, k2, k3⟩ := hg
  generalize hq : (Except.error (TErr.db (.conflict c h)) : Except TErr (TAnswer C)) = q at g3
  generalize mapOf C (update s C db tid d).2.trees.abs = m2 at g3
  generalize mapOf C db.trees.abs = m at g3 k1
  cases g3 with
  | badKey j hj hb => cases hq; cases hb
  | badContents x hx hb => cases hq; cases hb
  | rejected _ hb => cases hq; cases hb with | mk hv _ => cases hv
  | update hs hrv hw =>
    cases hw with
    | same _ _ => cases hq
    | changed _ _ _ _ => cases hq
    | exhausted _ hn => cases hq
  | updateMissing hn hid => cases hq
  | updateStale hs hid hr' hst =>
    rw [hh, k1] at hs
    cases hs
    obtain ⟨b', k2', k3'⟩ := hr'
    rw [k2] at k2'
    cases k2'
    rw [hh, k3] at hst
    exact hst k3'.symm

/-- **C72.** A `modify` goes round its loop only because the document changed: if the document is the
same when it makes its update as when it reloaded it, whatever happened in between, then the update
ends the loop. -/
theorem C72_retry_only_after_change (s : Schema) (C : Coll) (first : Option C.key.T)
    (next : C.key.T → Option C.key.T) (hl : Lawful s C first next) (S : Bytes → Prop)
    (hS : CollisionFree s.digest S) (dflt : CHeader C.key) (R : Type) (pre es : List (Ev C R))
    (hpre : ∀ e ∈ pre, EvIn S s.digest C e) (hes : ∀ e ∈ es, EvIn S s.digest C e) (i : Nat)
    (hi : ∀ e ∈ es, match e with | .start j _ _ => j ≠ i | .step j _ => j ≠ i | .env _ => True)
    (f : Modifier C R) (n : Nat) (doc : CDoc C) (tid tid' : Nat)
    (hw : (exec s C dflt (.init C R) pre).2.tasks i = some (f, .get n doc))
    (hrun : (stepWorld s C dflt (exec s C dflt (.init C R) pre).2 (.step i tid)).1 = .running)
    (hsame : get C (exec s C dflt (stepWorld s C dflt (exec s C dflt (.init C R) pre).2 (.step i tid)).2
        es).2.db doc.header.id = get C (exec s C dflt (.init C R) pre).2.db doc.header.id) :
    ∃ r self, (stepWorld s C dflt (exec s C dflt (stepWorld s C dflt
      (exec s C dflt (.init C R) pre).2 (.step i tid)).2 es).2 (.step i tid')).1 = .finished r self := by
  obtain ⟨js, h1, -⟩ := exec_refines hS hl dflt pre (.init C R) (fun _ => none) worldOk_init hpre
  generalize (exec s C dflt (.init C R) pre).2 = w0 at *
  obtain ⟨js1, h2, -⟩ := stepWorld_refines hS hl dflt h1 (e := .step i tid) trivial
  -- the reload
  have hre : ∃ d, get C w0.db doc.header.id = .ok (some d) ∧
      (stepWorld s C dflt w0 (.step i tid)).2.tasks i = some (f, callModifier f (n + 1) d) := by
    simp only [stepWorld, stepTask, hw, stepModify] at hrun ⊢
    cases hg : get C w0.db doc.header.id with
    | error e => simp [hg, afterGet] at hrun
    | ok o =>
      cases o with
      | none =>
        simp only [hg, afterGet] at hrun
        cases hd : documentId C.key doc.header.id with
        | error e => simp [hd] at hrun
        | ok id => simp [hd] at hrun
      | some d =>
        refine ⟨d, rfl, ?_⟩
        simp only [hg, afterGet, setAt_same]
  obtain ⟨d, hd, ht1⟩ := hre
  generalize (stepWorld s C dflt w0 (.step i tid)).2 = w1 at *
  obtain ⟨js2, h3, -⟩ := exec_refines hS hl dflt es w1 js1 h2 hes
  have ht2 := exec_task (s := s) (dflt := dflt) es w1 hi
  rw [ht1] at ht2
  generalize (exec s C dflt w1 es).2 = w2 at *
  have hmod : ModOk S f := by
    have := h3.2.2 i
    rw [ht2] at this
    obtain ⟨k, -, h, -⟩ := this
    exact h
  rw [hd] at hsame
  obtain ⟨q1, q2⟩ := get_shows hS hl h3.1 h3.2.1 hsame
  simp only [stepWorld, stepTask, ht2, callModifier, stepModify]
  cases hu : (update s C w2.db tid' (f (n + 1) d).1).1 with
  | ok d' => exact ⟨_, _, rfl⟩
  | error e =>
    by_cases hc : ∃ c h, e = .db (.conflict c h)
    · obtain ⟨c, h, rfl⟩ := hc
      exact absurd hu (update_no_conflict hS hl h3.1 h3.2.1 q2 (hmod.1 _ _) (hmod.2 _ _) c h)
    · have : afterUpdate (n + 1) (f (n + 1) d).1 (f (n + 1) d).2 (.error e) =
          .finished (.error e) (f (n + 1) d).1 := by
        cases e with
        | db e =>
          cases e with
          | conflict c h => exact absurd ⟨c, h, rfl⟩ hc
          | _ => rfl
        | _ => rfl
      rw [this]
      exact ⟨_, _, rfl⟩

/-- A step of a task that ends it, or leaves it in the other phase. -/
theorem update_step {dflt : CHeader C.key} {w : World C R} {i tid f n g d r}
    (h : w.tasks i = some (f, .update n g d r)) :
    (∃ r self, (stepWorld s C dflt w (.step i tid)).1 = .finished r self) ∨
    (stepWorld s C dflt w (.step i tid)).2.tasks i = some (f, .get n d) := by
  simp only [stepWorld, stepTask, h, stepModify]
  cases hu : (update s C w.db tid d).1 with
  | ok d' => exact .inl ⟨_, _, rfl⟩
  | error e =>
    by_cases hc : ∃ c h, e = .db (.conflict c h)
    · obtain ⟨c, h, rfl⟩ := hc
      right
      simp only [afterUpdate, setAt_same]
    · left
      have : afterUpdate n d r (.error e) = .finished (.error e) d := by
        cases e with
        | db e =>
          cases e with
          | conflict c h => exact absurd ⟨c, h, rfl⟩ hc
          | _ => rfl
        | _ => rfl
      rw [this]
      exact ⟨_, _, rfl⟩

/-- **C72.** Left alone, a `modify` returns after at most three calls on the database (a conflict, a
reload, and the update), wherever it was. -/
theorem C72_uncontended (s : Schema) (C : Coll) (first : Option C.key.T)
    (next : C.key.T → Option C.key.T) (hl : Lawful s C first next) (S : Bytes → Prop)
    (hS : CollisionFree s.digest S) (dflt : CHeader C.key) (R : Type) (pre : List (Ev C R))
    (hpre : ∀ e ∈ pre, EvIn S s.digest C e) (i : Nat) (t1 t2 t3 : Nat)
    (hw : (exec s C dflt (.init C R) pre).2.tasks i ≠ none) :
    ∃ r self, Out.finished r self ∈
      (exec s C dflt (exec s C dflt (.init C R) pre).2 [.step i t1, .step i t2, .step i t3]).1 := by
  have two : ∀ (pre : List (Ev C R)), (∀ e ∈ pre, EvIn S s.digest C e) → ∀ f n doc t1 t2,
      (exec s C dflt (.init C R) pre).2.tasks i = some (f, .get n doc) →
      ∃ r self, Out.finished r self ∈
        (exec s C dflt (exec s C dflt (.init C R) pre).2 [.step i t1, .step i t2]).1 := by
    intro pre hpre f n doc t1 t2 hg
    by_cases hrun : (stepWorld s C dflt (exec s C dflt (.init C R) pre).2 (.step i t1)).1 = .running
    · have hdb : (stepWorld s C dflt (exec s C dflt (.init C R) pre).2 (.step i t1)).2.db =
          (exec s C dflt (.init C R) pre).2.db := by
        simp only [stepWorld, stepTask, hg, stepModify]
        split <;> (rename_i h; simp only [Prod.mk.injEq] at h; exact h.2.symm)
      obtain ⟨r, self, h⟩ := C72_retry_only_after_change s C first next hl S hS dflt R pre [] hpre
        (by simp) i (by simp) f n doc t1 t2 hg hrun (by simp only [exec, hdb])
      exact ⟨r, self, by simp only [exec] at h ⊢; rw [h]; simp⟩
    · have : ∃ r self, (stepWorld s C dflt (exec s C dflt (.init C R) pre).2 (.step i t1)).1 =
          .finished r self := by
        revert hrun
        simp only [stepWorld, stepTask, hg]
        rcases stepModify s C f (exec s C dflt (.init C R) pre).2.db t1 (.get n doc) with ⟨o, db'⟩
        cases o with
        | running ph => intro h; exact absurd rfl h
        | finished r self => intro _; exact ⟨_, _, rfl⟩
      obtain ⟨r, self, h⟩ := this
      exact ⟨r, self, by simp only [exec]; rw [h]; simp⟩
  have exec_app : ∀ (es fs : List (Ev C R)) (w : World C R),
      exec s C dflt w (es ++ fs) = ((exec s C dflt w es).1 ++ (exec s C dflt (exec s C dflt w es).2 fs).1,
        (exec s C dflt (exec s C dflt w es).2 fs).2) := by
    intro es
    induction es with
    | nil => intro fs w; rfl
    | cons e es ih => intro fs w; simp only [List.cons_append, exec, ih]
  cases ht : (exec s C dflt (.init C R) pre).2.tasks i with
  | none => exact absurd ht hw
  | some t =>
    obtain ⟨f, ph⟩ := t
    cases ph with
    | get n doc =>
      obtain ⟨r, self, h⟩ := two pre hpre f n doc t1 t2 ht
      refine ⟨r, self, ?_⟩
      simp only [exec, List.mem_cons, List.not_mem_nil, or_false] at h ⊢
      rcases h with h | h
      · exact .inl h
      · exact .inr (.inl h)
    | update n g d r0 =>
      rcases update_step (s := s) (dflt := dflt) (tid := t1) ht with ⟨r, self, h⟩ | h
      · exact ⟨r, self, by simp only [exec]; rw [h]; simp⟩
      · have e1 : (exec s C dflt (.init C R) (pre ++ [.step i t1])).2 =
            (stepWorld s C dflt (exec s C dflt (.init C R) pre).2 (.step i t1)).2 := by
          rw [exec_app]; rfl
        obtain ⟨r, self, h'⟩ := two (pre ++ [.step i t1]) (by
          intro e he
          rcases List.mem_append.mp he with he | he
          · exact hpre e he
          · simp only [List.mem_singleton] at he; subst he; trivial) f n d t2 t3 (by rw [e1]; exact h)
        refine ⟨r, self, ?_⟩
        rw [e1] at h'
        simp only [exec] at h' ⊢
        exact List.mem_cons_of_mem _ h'

/-! ## `refresh` -/

/-- **C72.** `refresh` answers the document as `get` shows it, or that there is none. -/
theorem C72_refresh (C : Coll) (db : Db) (d : CDoc C) :
    refresh C db d = match get C db d.header.id with
      | .error e => .error e
      | .ok (some d') => .ok d'
      | .ok none => match documentId C.key d.header.id with
        | .ok id => .error (.db (.notFound C.name id))
        | .error e => .error e := by
  unfold refresh get
  cases hd : documentId C.key d.header.id with
  | error e => rfl
  | ok id =>
    simp only
    cases hg : getDoc db C.name id with
    | none => rfl
    | some doc =>
      simp only
      cases ho : CDoc.ofDocument C doc with
      | error e => rfl
      | ok cd => rfl

/-! ## Concrete cases -/

/-- A modifier that appends a byte. -/
def exAppend (b : UInt8) : Modifier exColl Unit := fun _ d => (⟨d.header, List.append (α := UInt8) d.contents [b]⟩, ())

def exDoc7 : CDoc exColl := ⟨⟨(1 : BitVec 8), ⟨0, [7]⟩⟩, [7]⟩

/-- Two tasks modify the same document from the same revision: the second conflicts, reloads and
succeeds. -/
def exRace : List (Ev exColl Unit) :=
  [.env (.call 1 (.push [7])), .start 0 (exAppend 8) exDoc7, .start 1 (exAppend 9) exDoc7,
   .step 0 2, .step 1 3, .step 1 4, .step 1 5]

example : ∀ e ∈ exRace, EvIn (fun _ => True) exTSchema.digest exColl e := by
  intro e he
  simp only [exRace, List.mem_cons, List.not_mem_nil, or_false] at he
  rcases he with rfl | rfl | rfl | rfl | rfl | rfl | rfl
  · intro e he; simp only [List.mem_singleton] at he; subst he; intro _ _ _ _; trivial
  · exact ⟨fun _ _ => rfl, ⟨0, [7], rfl, trivial, rfl⟩, fun _ _ _ _ => trivial⟩
  · exact ⟨fun _ _ => rfl, ⟨0, [7], rfl, trivial, rfl⟩, fun _ _ _ _ => trivial⟩
  all_goals trivial

/-- What is seen of an event, in numbers. -/
def seen : Out exColl Unit → Nat × Bytes
  | .started => (0, [])
  | .idle => (1, [])
  | .running => (2, [])
  | .finished (.ok _) d => (3, d.contents)
  | .finished (.error _) _ => (4, [])
  | .env _ => (5, [])

example : (exec exTSchema exColl exDflt (.init exColl Unit) exRace).1.map seen =
    [(5, []), (0, []), (0, []), (3, [7, 8]), (2, []), (2, []), (3, [7, 8, 9])] := by decide +kernel

/-- **C72**: the assumption that the document was not edited is needed (and documented): contents
edited before `modify` are written along with the modification, unless there is a conflict, in which
case they are lost. -/
theorem C72_violated_edited_document :
    (exec exTSchema exColl exDflt (.init exColl Unit)
      [.env (.call 1 (.push [7])), .start 0 (exAppend 8) ⟨exDoc7.header, [5]⟩, .step 0 2]).1.map seen =
        [(5, []), (0, []), (3, [5, 8])] ∧
    (exec exTSchema exColl exDflt (.init exColl Unit)
      [.env (.call 1 (.push [7])), .env (.call 2 (.overwrite (1 : BitVec 8) [6])),
       .start 0 (exAppend 8) ⟨exDoc7.header, [5]⟩, .step 0 2, .step 0 3, .step 0 4]).1.map seen =
        [(5, []), (5, []), (0, []), (2, []), (2, []), (3, [6, 8])] := by decide +kernel

end Bonsai.Typed
