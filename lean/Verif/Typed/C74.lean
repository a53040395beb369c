import Verif.Typed.C74Core

/-!
# C74: typed view queries

The documents of the collection are described by what `get` answers (C71).
-/
set_option linter.unusedSimpArgs false
set_option linter.unusedSectionVars false
set_option linter.unusedVariables false

namespace Bonsai.Typed
open Bonsai Bonsai.Names Bonsai.Query Bonsai.Store

variable {C : Coll} {V : TView C} {s : Schema} {S : Bytes → Prop}
variable {first : Option C.key.T} {next : C.key.T → Option C.key.T}

/-! ## Executions -/

theorem TVStep.raw {σ σ' : VSys} (h : TVStep s S C σ σ') : VStep s σ σ' := by
  cases h with
  | transaction _ _ hp htid => exact .transaction hp htid
  | internal hs _ => exact hs

theorem TVExec.raw {σ σ' : VSys} (h : TVExec s S C σ σ') : VExec s σ σ' := by
  induction h with
  | refl => exact .refl _
  | step _ hs ih => exact .step ih hs.raw

theorem TVExec.trans {a b c : VSys} (h1 : TVExec s S C a b) (h2 : TVExec s S C b c) :
    TVExec s S C a c := by
  induction h2 with
  | refl => exact h1
  | step _ hs ih => exact .step ih hs

theorem specRun_typed (hl : Lawful s C first next) {ops : List Operation} {a : AbsStore} {q}
    (h : SpecRun s a ops q) (hops : TypedOps C ops) (ht : WellTyped C a) :
    ∀ p, q = .ok p → WellTyped C p.1 := by
  induction h with
  | nil a => intro p hp; cases hp; exact ht
  | fail _ _ => intro p hp; cases hp
  | next_fail _ _ _ => intro p hp; cases hp
  | @next_ok a op ops a1 r last a2 rs hla hop hrest ih =>
    intro p hp
    cases hp
    have ht1 : WellTyped C a1 := by
      by_cases hc : op.collection = C.name
      · obtain ⟨o, ho⟩ := hops op List.mem_cons_self hc
        have hgood := op_refines hl ht ho (by rw [← hc]; exact hla)
        rw [← hc, hop] at hgood
        exact hgood.1
      · intro id n b hg
        have hfr := specRun_frame (C := C) (p := (a1, [r])) (.next_ok hla hop (.nil _)) (by
          intro o ho; simp only [List.mem_singleton] at ho; rw [ho]; exact hc) id
        simp only at hfr
        rw [hfr] at hg
        exact ht id n b hg
    exact ih (fun o ho => hops o (List.mem_cons_of_mem _ ho)) ht1 (a2, rs) rfl

/-- Typed transactions keep the collection well typed. -/
theorem tvexec_inv (hS : CollisionFree s.digest S) (hl : Lawful s C first next) {σ σ' : VSys}
    (hr : Reachable s S σ.db) (ht : WellTyped C σ.db.trees.abs) (he : TVExec s S C σ σ') :
    Reachable s S σ'.db ∧ WellTyped C σ'.db.trees.abs := by
  induction he with
  | refl => exact ⟨hr, ht⟩
  | @step σ1 σ2 _ hs ih =>
    obtain ⟨hr, ht⟩ := ih
    cases hs with
    | @transaction tid ops t ch rs hops hw hp htid =>
      have hap : applyToRoots s σ1.db tid ops = (.ok rs, ⟨t, σ1.db.log ++ [(tid, some ch)]⟩) := by
        simp only [applyToRoots, hp]
      have hr' := Reachable.transaction tid ops hr hw
      have h2 := (serve_refines (q := .transaction tid ops) hS (hr.wf hS) (by
        intro _ _ e; cases e; exact hw)).2
      simp only [serve] at h2
      rw [hap] at hr' h2
      refine ⟨hr', ?_⟩
      show WellTyped C t.abs
      have hrun : SpecRun s σ1.db.trees.abs ops (.ok (t.abs, rs)) := by
        simp only at h2
        generalize hq : Answer.done (.ok rs) = an at h2
        generalize t.abs = z' at h2 ⊢
        generalize σ1.db.trees.abs = z at h2 ⊢
        cases h2 with
        | ok _ h => cases hq; exact h
        | fail _ h => cases hq
        | unknown _ => cases hq
        | rejected _ _ => cases hq
        | large _ => cases hq
      exact specRun_typed hl hrun hops ht _ rfl
    | internal hs hd =>
      refine ⟨.background hr hd, ?_⟩
      rw [abs_eq, hd, ← abs_eq]
      exact ht

theorem tpast_origin {σ σ' : VSys} (he : TVExec s S C σ σ') :
    ∀ p ∈ σ'.past, p ∈ σ.past ∨ ∃ τ, TVExec s S C σ τ ∧ TVExec s S C τ σ' ∧ p.2 = τ.db.trees := by
  induction he with
  | refl => intro p hp; exact .inl hp
  | @step τ τ' hex hs ih =>
    have hstep : TVExec s S C τ τ' := .step (.refl _) hs
    have key : ∀ p ∈ τ'.past, p ∈ τ.past ∨ p.2 = τ'.db.trees := by
      have hc : ∀ tid d t p, p ∈ (τ.commit tid d t).past → p ∈ τ.past ∨ p.2 = t := by
        intro tid d t p hp
        simp only [VSys.commit, List.mem_append, List.mem_singleton] at hp
        rcases hp with h | rfl
        · exact .inl h
        · exact .inr rfl
      have hraw := hs.raw
      cases hraw with
      | transaction => exact fun p hp => hc _ _ _ p hp
      | other => exact fun p hp => hc _ _ _ p hp
      | @chunk pre post w m p tid bs es dm hj => exact fun p hp => hc tid none _ p hp
      | begin => exact fun p hp => .inl hp
      | scan => exact fun p hp => .inl hp
      | done => exact fun p hp => .inl hp
      | fail => exact fun p hp => .inl hp
      | restart => exact fun p hp => .inl hp
    intro p hp
    rcases key p hp with h | h
    · rcases ih p h with h | ⟨μ, h1, h2, h3⟩
      · exact .inl h
      · exact .inr ⟨μ, h1, h2.trans hstep, h3⟩
    · exact .inr ⟨τ', .step hex hs, .refl _, h⟩

/-! ## Documents -/

theorem typedDocs_of (hS : CollisionFree s.digest S) (hl : Lawful s C first next) {db : Db}
    (hr : Reachable s S db) (ht : WellTyped C db.trees.abs) :
    TypedDocs C fun id => getDoc db C.name id := by
  intro id d hd
  obtain ⟨cd, h1, h2, h3, -⟩ := shown_of_stored hl (hr.wf hS) ht hd
  exact ⟨cd, h1, h2, h3⟩

/-- What `get` answers. -/
theorem get_some (hl : Lawful s C first next) {db : Db} {cd : CDoc C}
    (hD : TypedDocs C fun id => getDoc db C.name id) :
    get C db cd.header.id = .ok (some cd) ↔
      ∃ id d, getDoc db C.name id = some d ∧ CDoc.ofDocument C d = .ok cd := by
  constructor
  · intro h
    unfold get at h
    cases hid : documentId C.key cd.header.id with
    | error e => rw [hid] at h; cases h
    | ok id =>
      rw [hid] at h
      simp only at h
      cases hg : getDoc db C.name id with
      | none => rw [hg] at h; cases h
      | some d =>
        rw [hg] at h
        simp only at h
        cases ho : CDoc.ofDocument C d with
        | error e => rw [ho] at h; cases h
        | ok cd' => rw [ho] at h; cases h; exact ⟨id, d, hg, ho⟩
  · rintro ⟨id, d, hg, ho⟩
    obtain ⟨cd', h1, h2, -⟩ := hD id d hg
    rw [ho] at h1
    cases h1
    simp only [get, h2, hg, ho]

/-! ## C74 -/

/-- Everything the theorems below assume of a run: a lawful collection and view of a schema, any
execution of typed transactions on the collection, any transactions on other collections, mapping
jobs, failures and restarts, from a state in which the view starts. -/
structure ViewRun (s : Schema) (S : Bytes → Prop) (V : TView C) (first : Option C.key.T)
    (next : C.key.T → Option C.key.T) (σ₀ σ : VSys) : Prop where
  collisionFree : CollisionFree s.digest S
  distinct : DistinctViews s
  coll : Lawful s C first next
  view : LawfulView s V
  start : VStart V.erase σ₀
  reach : Reachable s S σ₀.db
  typed : WellTyped C σ₀.db.trees.abs
  exec : TVExec s S C σ₀ σ

theorem ViewRun.inv {σ₀ σ : VSys} (h : ViewRun s S V first next σ₀ σ) :
    VSysInv V.erase σ ∧ Reachable s S σ.db ∧ WellTyped C σ.db.trees.abs ∧
      TypedDocs C fun id => getDoc σ.db C.name id := by
  obtain ⟨h1, -⟩ := vexec_inv h.distinct h.view.known (vstart_inv h.start) h.start.known h.exec.raw
  obtain ⟨h2, h3⟩ := tvexec_inv h.collisionFree h.coll h.reach h.typed h.exec
  exact ⟨h1, h2, h3, typedDocs_of h.collisionFree h.coll h2 h3⟩

/-- Nothing is left to map for the view. -/
def UpToDate (V : TView C) (σ : VSys) : Prop := ∀ id, (σ.db.trees.invalidated V.name).get id = none

/-- The view as stored. -/
def stored (V : TView C) (σ : VSys) : OMap ViewEntry := σ.db.trees.entries V.name

theorem ViewRun.found {σ₀ σ : VSys} (h : ViewRun s S V first next σ₀ σ) (hm : UpToDate V σ) :
    ∀ id key, Store.found (stored V σ) key id = expect V.erase (getDoc σ.db C.name id) key := by
  intro id key
  exact (h.inv.1.view.2 id (hm id)).2 key

theorem ViewRun.wf {σ₀ σ : VSys} (h : ViewRun s S V first next σ₀ σ) : ViewWF (stored V σ) :=
  h.inv.1.view.1.1

/-- A query that updates the view first (C31): it starts in `σ₁`, learns in `σ'` of a mapping job that
reported a transaction at least as new as the last one at the start (or there was none), and reads the
view in `σ₂`. -/
structure UpdatesFirst (s : Schema) (S : Bytes → Prop) (V : TView C) (σ₁ σ' σ₂ : VSys) : Prop where
  before : TVExec s S C σ₁ σ'
  after : TVExec s S C σ' σ₂
  ready : σ₁.db.lastTid = 0 ∨ ∃ m ∈ σ'.results V.name, σ₁.db.lastTid ≤ m

/-- What such a query reads, document by document. -/
theorem ViewRun.between {σ₀ σ₁ σ' σ₂ : VSys} (h : ViewRun s S V first next σ₀ σ₁)
    (hu : UpdatesFirst s S V σ₁ σ' σ₂) :
    ∃ D, TypedDocs C D ∧ (∀ id key, Store.found (stored V σ₂) key id = expect V.erase (D id) key) ∧
      ∀ id, ∃ τ, TVExec s S C σ₁ τ ∧ TVExec s S C τ σ₂ ∧ D id = getDoc τ.db C.name id := by
  have key : ∀ id, ∃ τ, TVExec s S C σ₁ τ ∧ TVExec s S C τ σ₂ ∧
      ∀ key, Store.found (stored V σ₂) key id = expect V.erase (getDoc τ.db C.name id) key := by
    intro id
    obtain ⟨p, hp, hk, hs⟩ := query_fresh h.distinct h.view.known h.start h.exec.raw hu.before.raw
      hu.after.raw hu.ready id
    rcases tpast_origin (hu.before.trans hu.after) p hp with hin | ⟨τ, a, b, c⟩
    · have heq := past_now h.inv.1 hin hk
      refine ⟨σ₁, .refl _, hu.before.trans hu.after, ?_⟩
      intro key
      have := hs.2 key
      rw [heq] at this
      exact this
    · refine ⟨τ, a, b, ?_⟩
      intro key
      have := hs.2 key
      rw [c] at this
      exact this
  obtain ⟨f, hf⟩ := Classical.skolem.mp key
  refine ⟨fun id => getDoc (f id).db C.name id, ?_, fun id key => (hf id).2.2 key,
    fun id => ⟨f id, (hf id).1, (hf id).2.1, rfl⟩⟩
  intro id d hd
  have hτ : ViewRun s S V first next σ₀ (f id) := { h with exec := h.exec.trans (hf id).1 }
  exact hτ.inv.2.2.2 id d hd

/-- What any query reads of a view that is up to date, or was there from the beginning. -/
theorem ViewRun.snapshot {σ₀ σ : VSys} (h : ViewRun s S V first next σ₀ σ)
    (hm : UpToDate V σ ∨ σ₀.db.lastTid = 0) :
    ∃ D, TypedDocs C D ∧ ∀ id key, Store.found (stored V σ) key id = expect V.erase (D id) key := by
  rcases hm with hm | hz
  · exact ⟨_, h.inv.2.2.2, h.found hm⟩
  · obtain ⟨D, h1, h2, -⟩ := ({ h with exec := .refl _ } : ViewRun s S V first next σ₀ σ₀).between
      ⟨.refl _, h.exec, .inl hz⟩
    exact ⟨D, h1, h2⟩

/-- **C74**, contents: in every reachable state in which the view is up to date, a typed query without
limit returns exactly the mappings the documents of the collection emit for the keys it asks for, each
with the header of its document; every result can be decoded. -/
theorem C74_query (σ₀ σ : VSys) (h : ViewRun s S V first next σ₀ σ) (hm : UpToDate V σ)
    (b : ViewSettings V.key) (hk : KeysEncodable V.key b.key) (hb : b.limit = none) :
    ∃ rs, query V (stored V σ) b = .ok rs ∧ ∀ r, r ∈ rs ↔
      SelectsBy (Before V.key) b.key r.key ∧
      ∃ d, get C σ.db d.header.id = .ok (some d) ∧ r.source = d.header ∧ TEmits V d r.key r.value := by
  obtain ⟨hinv, hr, ht, hD⟩ := h.inv
  obtain ⟨q, hq⟩ := serKey_ok hk
  obtain ⟨rs, h1, -, -, h4⟩ := query_core h.view h.wf hD (h.found hm) b hq
  refine ⟨rs, h1, ?_⟩
  intro r
  rw [h4 hb r]
  refine and_congr Iff.rfl ?_
  constructor
  · rintro ⟨id, d, cd, h5, h6, h7, h8⟩
    exact ⟨cd, (get_some h.coll hD).mpr ⟨id, d, h5, h6⟩, h7, h8⟩
  · rintro ⟨cd, h5, h7, h8⟩
    obtain ⟨id, d, h5, h6⟩ := (get_some h.coll hD).mp h5
    exact ⟨id, d, cd, h5, h6, h7, h8⟩

theorem withinBy_congr {κ : Type} {lt lt' : κ → κ → Prop} {r : Range κ} {k : κ}
    (h : ∀ v ∈ boundKeys r.start ++ boundKeys r.stop, (lt v k ↔ lt' v k) ∧ (lt k v ↔ lt' k v)) :
    WithinBy lt r k ↔ WithinBy lt' r k := by
  obtain ⟨x, y⟩ := r
  simp only [WithinBy]
  refine and_congr ?_ ?_
  · cases x with
    | unbounded => exact Iff.rfl
    | included v => exact or_congr Iff.rfl (h v (by simp [boundKeys])).1
    | excluded v => exact (h v (by simp [boundKeys])).1
  · cases y with
    | unbounded => exact Iff.rfl
    | included v => exact or_congr Iff.rfl (h v (by simp [boundKeys])).2
    | excluded v => exact (h v (by simp [boundKeys])).2

/-- **C74**, ranges: if the encodings of the view's keys sort as the keys do (C01, C02), the keys asked
for by a range are those within the range in the key type's own order. -/
theorem C74_query_own_order (hs : SortsCorrectly V.key) (σ₀ σ : VSys)
    (h : ViewRun s S V first next σ₀ σ) (hm : UpToDate V σ)
    (b : ViewSettings V.key) (hk : KeysEncodable V.key b.key) (hb : b.limit = none) :
    ∃ rs, query V (stored V σ) b = .ok rs ∧ ∀ r, r ∈ rs ↔
      SelectsBy V.key.lt b.key r.key ∧
      ∃ d, get C σ.db d.header.id = .ok (some d) ∧ r.source = d.header ∧ TEmits V d r.key r.value := by
  obtain ⟨rs, h1, h2⟩ := C74_query σ₀ σ h hm b hk hb
  refine ⟨rs, h1, fun r => ?_⟩
  rw [h2]
  constructor
  all_goals
    rintro ⟨hsel, d, hd, hsrc, he⟩
    refine ⟨?_, d, hd, hsrc, he⟩
    obtain ⟨ms, hms, hall, hlp⟩ := he
    obtain ⟨kb, hkb⟩ := Option.isSome_iff_exists.mp (hall _ (lastPair_mem hlp)).1
    simp only at hkb
    revert hsel
    cases hbk : b.key with
    | none => exact fun h => h
    | some q =>
      cases q with
      | matches_ _ => exact fun h => h
      | multiple _ => exact fun h => h
      | range rg =>
        simp only [SelectsBy]
        rw [hbk] at hk
        have hc : WithinBy (Before V.key) rg r.key ↔ WithinBy V.key.lt rg r.key := by
          refine withinBy_congr fun v hv => ?_
          obtain ⟨vb, hvb, -⟩ := hk v hv
          exact ⟨by rw [before_enc hvb hkb, hs _ _ _ _ hvb hkb],
            by rw [before_enc hkb hvb, hs _ _ _ _ hkb hvb]⟩
        first | exact hc.mp | exact hc.mpr

/-- **C74**, errors: a query with a key that has no encoding fails without reading anything. -/
theorem C74_query_bad_key (es : OMap ViewEntry) (b : ViewSettings V.key) (q : QueryKey V.key.T)
    (hb : b.key = some q) (k : V.key.T) (hk : k ∈ keysOf q) (hn : V.key.enc k = none) :
    query V es b = .error .key ∧ Typed.reduceGrouped V es b = .error .key := by
  have : serialized V.key q = none := by
    cases hq : serialized V.key q with
    | none => rfl
    | some q' =>
      exfalso
      have hall : ∀ {vs : List V.key.T} {bs}, encodeAll V.key vs = some bs → ∀ v ∈ vs, V.key.enc v ≠ none := by
        intro vs
        induction vs with
        | nil => intro _ _ v hv; cases hv
        | cons w vs ih =>
          intro bs h v hv
          simp only [encodeAll, Option.bind_eq_some_iff, Option.map_eq_some_iff] at h
          obtain ⟨c, hc, cs, hcs, rfl⟩ := h
          rcases List.mem_cons.mp hv with rfl | hv
          · rw [hc]; simp
          · exact ih hcs v hv
      have hbound : ∀ {x : Bound V.key.T} {y}, encodeBound V.key x = some y → ∀ v ∈ boundKeys x, V.key.enc v ≠ none := by
        intro x y h v hv
        cases x with
        | unbounded => simp [boundKeys] at hv
        | included w =>
          simp only [boundKeys, List.mem_singleton] at hv; subst hv
          simp only [encodeBound, Option.map_eq_some_iff] at h
          obtain ⟨i, hi, -⟩ := h; rw [hi]; simp
        | excluded w =>
          simp only [boundKeys, List.mem_singleton] at hv; subst hv
          simp only [encodeBound, Option.map_eq_some_iff] at h
          obtain ⟨i, hi, -⟩ := h; rw [hi]; simp
      cases q with
      | matches_ v =>
        simp only [Query.keysOf, List.mem_singleton] at hk; subst hk
        simp [serialized, hn] at hq
      | multiple vs =>
        simp only [serialized, Option.map_eq_some_iff] at hq
        obtain ⟨bs, hbs, -⟩ := hq
        exact hall hbs k hk hn
      | range r =>
        simp only [serialized, encodeRange, Option.map_eq_some_iff, Option.bind_eq_some_iff] at hq
        obtain ⟨rb, ⟨a, ha, z, hz, rfl⟩, rfl⟩ := hq
        rcases List.mem_append.mp hk with hk | hk
        · exact hbound ha k hk hn
        · exact hbound hz k hk hn
  simp [query, Typed.reduceGrouped, hb, serKey, this]

/-- The query scans the view: everything or a range of keys. -/
def Scans {κ : Type} : Option (QueryKey κ) → Prop
  | none => True
  | some (.range _) => True
  | _ => False

theorem isScan_iff {K : KeyTy} {q : Option (QueryKey K.T)} {q'} (h : serKey K q = .ok q') :
    Scans q ↔ IsScan q' := by
  cases q with
  | none => cases h; exact Iff.rfl
  | some q =>
    simp only [serKey] at h
    cases hs : serialized K q with
    | none => rw [hs] at h; cases h
    | some qb =>
      rw [hs] at h
      cases h
      cases q with
      | matches_ v => simp only [serialized, Option.map_eq_some_iff] at hs; obtain ⟨_, _, rfl⟩ := hs; exact Iff.rfl
      | multiple v => simp only [serialized, Option.map_eq_some_iff] at hs; obtain ⟨_, _, rfl⟩ := hs; exact Iff.rfl
      | range v => simp only [serialized, Option.map_eq_some_iff] at hs; obtain ⟨_, _, rfl⟩ := hs; exact Iff.rfl

/-- **C74**, order: in every reachable state, stale or not, results are in ascending key order (for every kind of query), or for a scan in
descending key order; with any limit. -/
theorem C74_order_partial (σ₀ σ : VSys) (h : ViewRun s S V first next σ₀ σ)
    (hm : UpToDate V σ ∨ σ₀.db.lastTid = 0)
    (b : ViewSettings V.key) (hk : KeysEncodable V.key b.key) :
    ∃ rs, query V (stored V σ) b = .ok rs ∧
      (b.order = .ascending → rs.Pairwise fun x y => x.key = y.key ∨ Before V.key x.key y.key) ∧
      (b.order = .descending → Scans b.key →
        rs.Pairwise fun x y => x.key = y.key ∨ Before V.key y.key x.key) := by
  obtain ⟨D, hD, hf⟩ := h.snapshot hm
  obtain ⟨q, hq⟩ := serKey_ok hk
  obtain ⟨rs, h1, h2, h3, -⟩ := query_core h.view h.wf hD hf b hq
  have hle : ∀ a ∈ queryByName (stored V σ) q b.order b.limit,
      ∀ a' ∈ queryByName (stored V σ) q b.order b.limit, ∀ x y, decodeMapped V a = .ok x →
      decodeMapped V a' = .ok y → a.key ≤ a'.key → x.key = y.key ∨ Before V.key x.key y.key := by
    intro a ha a' ha' x y hx hy hl
    obtain ⟨x', g1, g2, g3, -⟩ := h3 a ha
    rw [hx] at g1; cases g1
    obtain ⟨y', f1, f2, f3, -⟩ := h3 a' ha'
    rw [hy] at f1; cases f1
    rcases bytes_le_iff.mp hl with e | e
    · exact .inl (enc_inj h.view.key g3 g2 (by rw [f2, e]))
    · exact .inr ⟨_, _, g2, f2, e⟩
  refine ⟨rs, h1, ?_, ?_⟩
  · intro ho
    have := C34_ascending_order_partial (stored V σ) h.wf q b.limit
    rw [← ho] at this
    exact collect_pairwise h2 this hle
  · intro ho hsc
    have := (C34_scan_order (stored V σ) h.wf q ((isScan_iff hq).mp hsc) b.limit).2
    rw [← ho] at this
    refine collect_pairwise h2 this fun a ha a' ha' x y hx hy hl => ?_
    rcases hle a' ha' a ha y x hy hx hl with e | e
    · exact .inl e.symm
    · exact .inr e

/-- **C74**, limit: the result with a limit is a prefix of the result without. -/
theorem C74_limit_is_prefix (σ₀ σ : VSys) (h : ViewRun s S V first next σ₀ σ)
    (hm : UpToDate V σ ∨ σ₀.db.lastTid = 0)
    (b : ViewSettings V.key) (hk : KeysEncodable V.key b.key) :
    ∃ rs all, query V (stored V σ) b = .ok rs ∧
      query V (stored V σ) { b with limit := none } = .ok all ∧ rs <+: all := by
  obtain ⟨D, hD, hf⟩ := h.snapshot hm
  obtain ⟨q, hq⟩ := serKey_ok hk
  obtain ⟨rs, h1, h2, -, -⟩ := query_core h.view h.wf hD hf b hq
  obtain ⟨all, g1, g2, -, -⟩ := query_core h.view h.wf hD hf
    { b with limit := none } hq
  obtain ⟨rs', f1, f2, -⟩ := collect_take g2 _ (queryByName_prefix (stored V σ) q b.order b.limit)
  rw [h2] at f1
  cases f1
  exact ⟨rs, all, h1, g1, f2⟩

/-- Every key of the view is emitted by at most one document. -/
def OneEach (V : TView C) (db : Db) : Prop :=
  ∀ d d' : CDoc C, get C db d.header.id = .ok (some d) → get C db d'.header.id = .ok (some d') →
    ∀ k x x', TEmits V d k x → TEmits V d' k x' → d = d'

/-- **C74**, limit: when every key is emitted by at most one document, a scan with limit `n` returns
the first `n` results. -/
theorem C74_limit_partial (σ₀ σ : VSys) (h : ViewRun s S V first next σ₀ σ) (hm : UpToDate V σ)
    (hone : OneEach V σ.db) (b : ViewSettings V.key) (hk : KeysEncodable V.key b.key)
    (hsc : Scans b.key) (n : Nat) :
    ∃ all, query V (stored V σ) { b with limit := none } = .ok all ∧
      query V (stored V σ) { b with limit := some n } = .ok (all.take n) := by
  obtain ⟨hinv, hr, ht, hD⟩ := h.inv
  have hwf := h.wf
  obtain ⟨q, hq⟩ := serKey_ok hk
  obtain ⟨all, g1, g2, -, -⟩ := query_core h.view hwf hD (h.found hm) { b with limit := none } hq
  obtain ⟨rs, h1, h2, -, -⟩ := query_core h.view hwf hD (h.found hm) { b with limit := some n } hq
  refine ⟨all, g1, ?_⟩
  have hlen : ∀ k e, (stored V σ).get k = some e → e.mappings.length = 1 := by
    intro k e he
    have hne := (hwf k e he).2.1
    have hnd : NodupIds e.mappings := by
      have := hwf.nodup k
      rw [he] at this
      exact this
    match hmm : e.mappings, hne with
    | [m], _ => rfl
    | a :: c :: r, _ =>
      exfalso
      have hmem : ∀ m, m ∈ e.mappings → m ∈ mappingsOf ((stored V σ).get k) := by
        intro m hm'; rw [he]; exact hm'
      obtain ⟨i1, d1, c1, k1, x1, p1, p2, p3, p4, p5, p6⟩ :=
        (stored_typed h.view hwf hD (h.found hm) k a).mp (hmem a (by rw [hmm]; simp))
      obtain ⟨i2, d2, c2, k2, x2, q1, q2, q3, q4, q5, q6⟩ :=
        (stored_typed h.view hwf hD (h.found hm) k c).mp (hmem c (by rw [hmm]; simp))
      have hkk := enc_inj h.view.key (emits_fits h.view p3 p4) p4 q4
      subst hkk
      have hcc := hone c1 c2 ((get_some h.coll hD).mpr ⟨i1, d1, p1, p2⟩)
        ((get_some h.coll hD).mpr ⟨i2, d2, q1, q2⟩) k1 x1 x2 p3 q3
      subst hcc
      obtain ⟨_, a1, a2, a3⟩ := hD i1 d1 p1
      rw [p2] at a1; cases a1
      obtain ⟨_, b1, b2, b3⟩ := hD i2 d2 q1
      rw [q2] at b1; cases b1
      rw [a2] at b2
      have hii : i1 = i2 := by simpa using b2
      rw [hmm] at hnd
      simp only [NodupIds, List.map_cons, List.nodup_cons, List.mem_cons] at hnd
      apply hnd.1
      left
      rw [p6, q6, a3, b3, hii]
  have hraw := C34_limit_partial (stored V σ) hwf q ((isScan_iff hq).mp hsc) b.order n hlen
  simp only at h2 g2
  rw [hraw] at h2
  obtain ⟨rs', f1, f2, f3⟩ := collect_take g2 _ (List.take_prefix n _)
  rw [h2] at f1
  cases f1
  rw [h1]
  have hll : (queryByName (stored V σ) q b.order none).length = all.length := by
    have := congrArg List.length (collect_map g2)
    simpa using this
  have : rs = all.take n := by
    rw [List.prefix_iff_eq_take.mp f2, f3, List.length_take, hll]
    rw [List.take_eq_take_iff]
    omega
  rw [this]

end Bonsai.Typed
