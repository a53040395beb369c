import Verif.Typed.Modify

/-!
# C72: `modify` never loses an update
-/
set_option linter.unusedSimpArgs false
set_option linter.unusedVariables false

namespace Bonsai.Typed
open Bonsai Bonsai.Names Bonsai.Query Bonsai.Store

variable {s : Schema} {C : Coll} {first : Option C.key.T} {next : C.key.T → Option C.key.T}
variable {S : Bytes → Prop} {db : Db} {R : Type}

/-- What the map holds was written. -/
theorem stored_in (hS : CollisionFree s.digest S) (hl : Lawful s C first next) (hr : Reachable s S db)
    (ht : WellTyped C db.trees.abs) {k n x} (h : mapOf C db.trees.abs k = some (n, x)) :
    ∃ b, C.serialize x = some b ∧ S b := by
  obtain ⟨id, hid⟩ := mapOf_documentId h
  obtain ⟨b, ha, hb⟩ := (mapOf_some hl ht hid).mp h
  refine ⟨b, hb, ?_⟩
  cases hg : getDoc db C.name id with
  | none => rw [abs_eq, abs_of_none hg] at ha; cases ha
  | some d =>
    rw [abs_eq, abs_of_get hg] at ha
    simp only [Option.some.injEq, Prod.mk.injEq] at ha
    rw [← ha.2]
    exact ((hr.wf hS) _ _ _ hg).2.2

/-- A genuine document with the stored revision has the stored contents. -/
theorem genuine_match (hS : CollisionFree s.digest S) (hl : Lawful s C first next)
    (hr : Reachable s S db) (ht : WellTyped C db.trees.abs) {k n y} {g : CDoc C}
    (hm : mapOf C db.trees.abs k = some (n, y)) (hg : Genuine S s.digest C g)
    (hrev : IsRev s.digest C n y g.header.revision) : g.contents = y := by
  obtain ⟨b, hb, hSb⟩ := stored_in hS hl hr ht hm
  obtain ⟨n', c, hc, hSc, hgr⟩ := hg
  obtain ⟨b', hb', hr'⟩ := hrev
  rw [hb] at hb'; cases hb'
  rw [hgr] at hr'
  simp only [Revision.mk.injEq] at hr'
  have := hS c b hSc hSb hr'.2
  subst this
  have h1 := hl.contents _ _ hc
  rw [hl.contents _ _ hb] at h1
  cases h1; rfl

/-- What is known of a running `modify` of `k` by `f`. -/
def PhaseOk (S : Bytes → Prop) (dg : Bytes → Bytes) (f : Modifier C R) (k : C.key.T) : Phase C R → Prop
  | .update n g d r => f n g = (d, r) ∧ g.header.id = k ∧ Genuine S dg C g
  | .get _ d => d.header.id = k

/-- A modifier as assumed. -/
def ModOk (S : Bytes → Prop) (f : Modifier C R) : Prop :=
  KeepsHeader f ∧ ∀ n d' b, C.serialize (f n d').1.contents = some b → S b

theorem callModifier_ok {dg} {f : Modifier C R} {n : Nat} {d : CDoc C} (hg : Genuine S dg C d) :
    PhaseOk S dg f d.header.id (callModifier f n d) := ⟨rfl, rfl, hg⟩

/-- What has to be shown of a step of `modify`. -/
def StepGood (s : Schema) (C : Coll) (S : Bytes → Prop) (f : Modifier C R) (k : C.key.T) (db db' : Db) :
    Next C R → Prop
  | .running ph' => db' = db ∧ PhaseOk S s.digest f k ph'
  | .finished (.ok r) self =>
    Modified s.digest C f k (mapOf C db.trees.abs) r self (mapOf C db'.trees.abs)
  | .finished (.error e) _ => db' = db ∧ ModifyFails s C f k (mapOf C db.trees.abs) e

theorem stepModify_refines (hS : CollisionFree s.digest S) (hl : Lawful s C first next)
    (hr : Reachable s S db) (ht : WellTyped C db.trees.abs) {f : Modifier C R} {k : C.key.T}
    (hf : ModOk S f) {ph : Phase C R} (hp : PhaseOk S s.digest f k ph) {tid : Nat} {o db'}
    (h : stepModify s C f db tid ph = (o, db')) :
    Reachable s S db' ∧ WellTyped C db'.trees.abs ∧
    StepGood s C S f k db db' o := by
  cases ph with
  | update n g d r =>
    obtain ⟨p1, p2, p3⟩ := hp
    have hhd : d.header = g.header := by have := hf.1 n g; rw [p1] at this; exact this
    have hk : d.header.id = k := by rw [hhd]; exact p2
    obtain ⟨g1, g2, g3, g4⟩ := good_update (first := first) (next := next) hS hl hr ht (tid := tid)
      (d := d) (by intro b hb; exact hf.2 n g b (by rw [p1]; exact hb))
    simp only [stepModify, Prod.mk.injEq] at h
    obtain ⟨rfl, rfl⟩ := h
    refine ⟨g1, g2, ?_⟩
    cases hu : (update s C db tid d).1 with
    | error e =>
      rw [hu] at g3 g4
      have hdb := g4 e rfl
      simp only at hdb
      rw [hdb] at g3 ⊢
      by_cases hc : ∃ c h, e = .db (.conflict c h)
      · obtain ⟨c, h, rfl⟩ := hc
        exact ⟨rfl, hk⟩
      · have : afterUpdate n d r (.error e) = .finished (.error e) d := by
          cases e with
          | db e =>
            cases e with
            | conflict c h => exact absurd ⟨c, h, rfl⟩ hc
            | _ => rfl
          | _ => rfl
        rw [this]
        refine ⟨rfl, ?_⟩
        have hgd : g = ⟨⟨k, g.header.revision⟩, g.contents⟩ := by rw [← p2]
        simp only [wrap] at g3
        generalize hq : (Except.error e : Except TErr (TAnswer C)) = q at g3
        generalize mapOf C db.trees.abs = m at g3 ⊢
        generalize hm : m = m2 at g3
        cases g3 with
        | badKey j hj hb =>
          cases hq
          simp only [List.mem_singleton] at hj
          subst hj
          rw [hk] at hb
          exact .badKey hb
        | badContents x hx hb =>
          cases hq
          simp only [List.mem_singleton] at hx
          subst hx
          obtain ⟨n', c, hc', -, hgr⟩ := p3
          refine .badContents (a := n) (n := n') (x := g.contents) (rev := g.header.revision)
            ⟨c, hc', hgr⟩ ?_
          rw [← hgd, p1]
          exact hb
        | rejected _ hb => cases hq; exact .rejected hb
        | update hs hrv hw =>
          cases hw with
          | same _ _ => cases hq
          | changed _ _ _ _ => cases hq
          | exhausted _ hn => cases hq; rw [hk] at hs; exact .exhausted hs hn
        | updateMissing hn hid => cases hq; rw [hk] at hn hid; exact .missing hn hid
        | updateStale _ _ _ _ => cases hq; exact absurd ⟨_, _, rfl⟩ hc
    | ok d' =>
      rw [hu] at g3
      simp only [wrap] at g3
      show Modified s.digest C f k _ r d' _
      have key : ∃ n y, mapOf C db.trees.abs d.header.id = some (n, y) ∧
          IsRev s.digest C n y d.header.revision ∧
          WriteSpec s.digest C (mapOf C db.trees.abs) d.header.id n y d.contents (.ok d')
            (mapOf C (update s C db tid d).2.trees.abs) := by
        generalize hq : (Except.ok (TAnswer.doc d') : Except TErr (TAnswer C)) = q at g3
        generalize mapOf C (update s C db tid d).2.trees.abs = m2 at g3 ⊢
        generalize mapOf C db.trees.abs = m at g3 ⊢
        cases g3 with
        | badKey j hj hb => cases hq
        | badContents x hx hb => cases hq
        | rejected _ hb => cases hq
        | update hs hrv hw =>
          refine ⟨_, _, hs, hrv, ?_⟩
          rename_i r'
          cases r' with
          | error e => cases hq
          | ok d2 => cases hq; exact hw
        | updateMissing hn hid => cases hq
        | updateStale _ _ _ _ => cases hq
      obtain ⟨n', y, k1, k2, k3⟩ := key
      rw [hk] at k1 k3
      rw [hhd] at k2
      have hcon := genuine_match hS hl hr ht k1 p3 k2
      refine ⟨n, n', y, g.header.revision, d.contents, k1, k2, ?_, k3⟩
      have hgd : g = ⟨⟨k, g.header.revision⟩, y⟩ := by rw [← p2, ← hcon]
      rw [← hgd, p1]
      have : d = ⟨⟨k, g.header.revision⟩, d.contents⟩ := by rw [← p2, ← hhd]
      rw [← this]
  | get n d =>
    have hk : d.header.id = k := hp
    simp only [stepModify, Prod.mk.injEq] at h
    obtain ⟨rfl, rfl⟩ := h
    refine ⟨hr, ht, ?_⟩
    rw [hk]
    cases hd : documentId C.key k with
    | error e =>
      simp only [get, hd, afterGet]
      exact ⟨rfl, .badKey (documentId_err hd)⟩
    | ok id =>
      cases hg : getDoc db C.name id with
      | none =>
        have hn := (mapOf_none hl ht hd).mpr (by rw [abs_eq]; exact abs_of_none hg)
        simp only [get, hd, hg, afterGet, hk]
        exact ⟨rfl, .missing hn (documentId_ok.mp hd).1⟩
      | some doc =>
        obtain ⟨cd, h1, h2, h3, n', h4, h5⟩ := shown_of_stored hl (hr.wf hS) ht hg
        have hj := documentId_inj hl.key h2 hd
        simp only [get, hd, hg, h1, afterGet]
        refine ⟨rfl, ?_⟩
        obtain ⟨b, hb, hSb⟩ := stored_in hS hl hr ht h4
        obtain ⟨b', hb', hr'⟩ := h5
        rw [hb] at hb'; cases hb'
        rw [← hj]
        exact callModifier_ok ⟨n', b, hb, hSb, hr'⟩

/-! ## Histories -/

/-- What is known of the world: every running `modify` is in order. -/
def WorldOk (s : Schema) (S : Bytes → Prop) (w : World C R) (js : Jobs C R) : Prop :=
  Reachable s S w.db ∧ WellTyped C w.db.trees.abs ∧
  ∀ i, match w.tasks i with
    | none => js i = none
    | some (f, ph) => ∃ k, js i = some (f, k) ∧ ModOk S f ∧ PhaseOk S s.digest f k ph

theorem setAt_same {α : Type} {f : Nat → α} {i v} : setAt f i v i = v := if_pos rfl
theorem setAt_ne {α : Type} {f : Nat → α} {i j v} (h : j ≠ i) : setAt f i v j = f j := if_neg h

theorem worldOk_set {w : World C R} {js : Jobs C R} (h : WorldOk s S w js) {i : Nat} {db' t j}
    (h1 : Reachable s S db') (h2 : WellTyped C db'.trees.abs)
    (h3 : match t with
      | none => j = none
      | some (f, ph) => ∃ k, j = some (f, k) ∧ ModOk S f ∧ PhaseOk S s.digest f k ph) :
    WorldOk s S (⟨db', setAt w.tasks i t⟩ : World C R) (setAt js i j) := by
  refine ⟨h1, h2, ?_⟩
  intro i'
  by_cases hi : i' = i
  · subst hi; simp only [setAt_same]; exact h3
  · simp only [setAt_ne hi]; exact h.2.2 i'

theorem setAt_id {α : Type} {f : Nat → α} {i v} (h : f i = v) : setAt f i v = f := by
  funext j
  by_cases hj : j = i
  · subst hj; rw [setAt_same, h]
  · rw [setAt_ne hj]

theorem stepWorld_refines (hS : CollisionFree s.digest S) (hl : Lawful s C first next)
    (dflt : CHeader C.key) {w : World C R} {js : Jobs C R} (hw : WorldOk s S w js) {e : Ev C R}
    (he : EvIn S s.digest C e) :
    ∃ js', WorldOk s S (stepWorld s C dflt w e).2 js' ∧
      WSpec s C first next (mapOf C w.db.trees.abs) js e (stepWorld s C dflt w e).1
        (mapOf C (stepWorld s C dflt w e).2.db.trees.abs) js' := by
  cases e with
  | start i f d =>
    obtain ⟨h1, h2, h3⟩ := he
    exact ⟨_, worldOk_set hw hw.1 hw.2.1 ⟨_, rfl, ⟨h1, h3⟩, callModifier_ok h2⟩, .start⟩
  | step i tid =>
    have hi := hw.2.2 i
    simp only [stepWorld, stepTask]
    cases ht : w.tasks i with
    | none =>
      rw [ht] at hi
      exact ⟨js, hw, .idle hi⟩
    | some t =>
      obtain ⟨f, ph⟩ := t
      rw [ht] at hi
      obtain ⟨k, h1, h2, h3⟩ := hi
      simp only
      rcases hst : stepModify s C f w.db tid ph with ⟨o, db'⟩
      obtain ⟨g1, g2, g3⟩ := stepModify_refines hS hl hw.1 hw.2.1 h2 h3 hst
      cases o with
      | running ph' =>
        obtain ⟨rfl, g4⟩ := g3
        refine ⟨js, ?_, .running h1⟩
        have := worldOk_set (i := i) (t := some (f, ph')) (j := some (f, k)) hw g1 g2 ⟨k, rfl, h2, g4⟩
        rw [setAt_id h1] at this
        exact this
      | finished r self =>
        refine ⟨setAt js i none, worldOk_set hw g1 g2 rfl, ?_⟩
        cases r with
        | ok r => exact .modified h1 g3
        | error e =>
          obtain ⟨rfl, g4⟩ := g3
          exact .failed h1 g4
  | env e =>
    cases e with
    | call tid c =>
      have hc : CallIn S C c := he (.call tid c) List.mem_cons_self
      obtain ⟨h1, h2, h3, -⟩ := run_refines hS hl hw.1 hw.2.1 dflt tid c hc
      exact ⟨js, ⟨h1, h2, hw.2.2⟩, .call h3⟩
    | other tid ops =>
      have ho := he (.other tid ops) List.mem_cons_self
      obtain ⟨h1, h2⟩ := other_refines (tid := tid) hS hw.1 hw.2.1 ho.1 ho.2
      have ht' : WellTyped C (applyToRoots s w.db tid ops).2.trees.abs := by
        intro id n b h; rw [h2] at h; exact hw.2.1 id n b h
      refine ⟨js, ⟨h1, ht', hw.2.2⟩, ?_⟩
      simp only [stepWorld, stepEnv]
      rw [mapOf_congr h2]
      exact .other

theorem exec_refines (hS : CollisionFree s.digest S) (hl : Lawful s C first next)
    (dflt : CHeader C.key) : ∀ (es : List (Ev C R)) (w : World C R) (js : Jobs C R), WorldOk s S w js →
    (∀ e ∈ es, EvIn S s.digest C e) →
    ∃ js', WorldOk s S (exec s C dflt w es).2 js' ∧
      WSpecAll s C first next (mapOf C w.db.trees.abs) js es (exec s C dflt w es).1
        (mapOf C (exec s C dflt w es).2.db.trees.abs) js' := by
  intro es
  induction es with
  | nil => intro w js hw _; exact ⟨js, hw, .nil _ _⟩
  | cons e es ih =>
    intro w js hw hin
    obtain ⟨js1, h1, h2⟩ := stepWorld_refines hS hl dflt hw (hin e List.mem_cons_self)
    obtain ⟨js2, h3, h4⟩ := ih _ js1 h1 fun e he => hin e (List.mem_cons_of_mem _ he)
    exact ⟨js2, h3, .cons h2 h4⟩

theorem worldOk_init : WorldOk s S (World.init C R) (fun _ => none) :=
  ⟨.empty, wellTyped_empty, fun _ => rfl⟩

theorem mapOf_empty : mapOf C Db.empty.trees.abs = fun _ => none := by
  funext k
  unfold mapOf
  split <;> rfl

/-- What `get` shows is the map. -/
def GetShows (dg : Bytes → Bytes) (C : Coll) (db : Db) (m : TMap C) : Prop :=
  (∀ k n x, m k = some (n, x) → ∃ d, get C db k = .ok (some d) ∧ IsDoc dg C k n x d) ∧
  ∀ k, m k = none → (∃ e, BadKey C.key k e) ∨ get C db k = .ok none

theorem getShows (hS : CollisionFree s.digest S) (hl : Lawful s C first next) (hr : Reachable s S db)
    (ht : WellTyped C db.trees.abs) : GetShows s.digest C db (mapOf C db.trees.abs) := by
  refine ⟨?_, ?_⟩
  · intro k n x hk
    obtain ⟨id, hid⟩ := mapOf_documentId hk
    obtain ⟨b, ha, hb⟩ := (mapOf_some hl ht hid).mp hk
    obtain ⟨id', d, g1, g2, g3, -⟩ := stored_of_shown hl (hr.wf hS) ht
      (cd := ⟨⟨k, ⟨n, s.digest b⟩⟩, x⟩) ⟨n, hk, b, hb, rfl⟩
    refine ⟨⟨⟨k, ⟨n, s.digest b⟩⟩, x⟩, ?_, rfl, rfl, b, hb, rfl⟩
    simp only at g1
    simp only [get, g1, g2, g3]
  · intro k hk
    cases hd : documentId C.key k with
    | error e => exact .inl ⟨e, documentId_err hd⟩
    | ok id =>
      right
      have := (mapOf_none hl ht hd).mp hk
      unfold get
      simp only [hd]
      cases hg : getDoc db C.name id with
      | none => rfl
      | some d => rw [abs_eq, abs_of_get hg] at this; cases this

/-- **C72.** In every history of any number of concurrent `modify` calls, interleaved call by call
with arbitrary typed calls and transactions on other collections, every `modify` that succeeds is one
atomic step on the map: the modifier applied to the contents stored at that moment.  One that fails
changes nothing and fails for one of the reasons of `ModifyFails` (never a conflict).  Afterwards `get`
shows exactly the final map. -/
theorem C72_modify_is_atomic (s : Schema) (C : Coll) (first : Option C.key.T)
    (next : C.key.T → Option C.key.T) (hl : Lawful s C first next) (S : Bytes → Prop)
    (hS : CollisionFree s.digest S) (dflt : CHeader C.key) (R : Type) (es : List (Ev C R))
    (hes : ∀ e ∈ es, EvIn S s.digest C e) :
    ∃ final js, WSpecAll s C first next (fun _ => none) (fun _ => none) es
        (exec s C dflt (.init C R) es).1 final js ∧
      GetShows s.digest C (exec s C dflt (.init C R) es).2.db final := by
  obtain ⟨js, h1, h2⟩ := exec_refines hS hl dflt es (.init C R) (fun _ => none) worldOk_init hes
  refine ⟨_, js, ?_, getShows hS hl h1.1 h1.2.1⟩
  have := h2
  rw [show (World.init C R).db = Db.empty from rfl, mapOf_empty] at this
  exact this

/-- The errors of `modify` are no conflicts. -/
theorem C72_no_conflict (s : Schema) (C : Coll) (f : Modifier C R) (k : C.key.T) (m : TMap C) (c h)
    (hf : ModifyFails s C f k m (.db (.conflict c h))) : False := by
  generalize he : TErr.db (.conflict c h) = e at hf
  cases hf with
  | badKey hb => cases hb <;> cases he
  | missing _ _ => cases he
  | badContents _ hb => cases hb; cases he
  | exhausted _ _ => cases he
  | rejected hr => cases hr with | mk hv _ => cases he; cases hv

end Bonsai.Typed
