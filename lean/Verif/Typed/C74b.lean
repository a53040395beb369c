import Verif.Typed.C74

/-!
# C74: typed view queries that update the view first, reductions, documents and deletion
-/
set_option linter.unusedSimpArgs false
set_option linter.unusedSectionVars false
set_option linter.unusedVariables false

namespace Bonsai.Typed
open Bonsai Bonsai.Names Bonsai.Query Bonsai.Store

variable {C : Coll} {V : TView C} {s : Schema} {S : Bytes → Prop}
variable {first : Option C.key.T} {next : C.key.T → Option C.key.T}

/-! ## Queries that update the view first -/

/-- **C74**, freshness: a query that updates the view first returns, for every primary key, exactly the
selected mappings of the document with that key as it was in some committed state between the start
of the query and its end (different keys may be seen at different states). -/
theorem C74_query_update_before (σ₀ σ₁ σ' σ₂ : VSys) (h : ViewRun s S V first next σ₀ σ₁)
    (hu : UpdatesFirst s S V σ₁ σ' σ₂) (b : ViewSettings V.key) (hk : KeysEncodable V.key b.key)
    (hb : b.limit = none) :
    ∃ rs, query V (stored V σ₂) b = .ok rs ∧ ∀ id, ∃ τ, TVExec s S C σ₁ τ ∧ TVExec s S C τ σ₂ ∧
      ∀ r, r.source.id = id → (r ∈ rs ↔ SelectsBy (Before V.key) b.key r.key ∧
        ∃ d, get C τ.db id = .ok (some d) ∧ r.source = d.header ∧ TEmits V d r.key r.value) := by
  obtain ⟨D, hD, hf, hτ⟩ := h.between hu
  obtain ⟨q, hq⟩ := serKey_ok hk
  have h2 : ViewRun s S V first next σ₀ σ₂ := { h with exec := h.exec.trans (hu.before.trans hu.after) }
  obtain ⟨rs, h1, -, -, h4⟩ := query_core h.view h2.wf hD hf b hq
  refine ⟨rs, h1, ?_⟩
  intro k
  cases hid : documentId C.key k with
  | error e =>
    refine ⟨σ₁, .refl _, hu.before.trans hu.after, ?_⟩
    rintro r rfl
    rw [h4 hb r]
    refine and_congr Iff.rfl ?_
    constructor
    · rintro ⟨id, d, cd, g1, g2, g3, -⟩
      obtain ⟨cd', f1, f2, -⟩ := hD id d g1
      rw [g2] at f1; cases f1
      rw [g3, f2] at hid; cases hid
    · rintro ⟨d, g1, -⟩
      simp only [get, hid] at g1; cases g1
  | ok id =>
    obtain ⟨τ, a, c, hd⟩ := hτ id
    refine ⟨τ, a, c, ?_⟩
    rintro r rfl
    rw [h4 hb r]
    refine and_congr Iff.rfl ?_
    constructor
    · rintro ⟨id', d, cd, g1, g2, g3, g4⟩
      obtain ⟨cd', f1, f2, -⟩ := hD id' d g1
      rw [g2] at f1; cases f1
      rw [g3, f2] at hid; cases hid
      refine ⟨cd, ?_, g3, g4⟩
      rw [hd] at g1
      simp only [get, g3, f2, g1, g2]
    · rintro ⟨cd, g1, g3, g4⟩
      unfold get at g1
      rw [hid] at g1
      simp only at g1
      cases hg : getDoc τ.db C.name id with
      | none => rw [hg] at g1; cases g1
      | some d =>
        rw [hg] at g1
        simp only at g1
        cases ho : CDoc.ofDocument C d with
        | error e => rw [ho] at g1; cases g1
        | ok cd' =>
          rw [ho] at g1; cases g1
          exact ⟨id, d, cd, by rw [hd]; exact hg, ho, g3, g4⟩

/-! ## Reductions -/

/-- The key-value pairs of query results. -/
def tpairs (rs : List (TMapped V)) : List (V.key.T × V.Value) := rs.map fun r => (r.key, r.value)

/-- The view has a reduce function. -/
def HasTReduce (V : TView C) : Prop := ∀ l b, V.reduce l b ≠ .unimplemented

theorem erase_hasReduce (h : HasTReduce V) : HasReduce V.erase := by
  intro l b
  show rawReduce V l b ≠ .unimplemented
  unfold rawReduce
  cases deserPairs V l with
  | none => simp
  | some ps =>
    simp only
    have := h ps b
    cases hr : V.reduce ps b with
    | ok x => simp only [serReduced]; cases V.serialize x <;> simp
    | unimplemented => exact absurd hr this
    | error => simp [serReduced]

theorem deserPairs_cons {p : Bytes × Bytes} {ps l} :
    deserPairs V (p :: ps) = some l ↔ ∃ q qs, l = q :: qs ∧ deserPair V p = some q ∧
      deserPairs V ps = some qs := by
  simp only [deserPairs]
  cases deserPair V p with
  | none => simp
  | some q =>
    cases deserPairs V ps with
    | none => simp
    | some qs =>
      simp only [Option.some.injEq]
      constructor
      · rintro rfl; exact ⟨q, qs, rfl, rfl, rfl⟩
      · rintro ⟨_, _, rfl, rfl, rfl⟩; rfl

theorem deserPairs_append {a c : List (Bytes × Bytes)} {x y} (ha : deserPairs V a = some x)
    (hc : deserPairs V c = some y) : deserPairs V (a ++ c) = some (x ++ y) := by
  induction a generalizing x with
  | nil => cases ha; exact hc
  | cons p a ih =>
    obtain ⟨q, qs, rfl, h1, h2⟩ := deserPairs_cons.mp ha
    exact deserPairs_cons.mpr ⟨q, qs ++ y, rfl, h1, ih h2⟩

theorem deserPair_some {p : Bytes × Bytes} {q} :
    deserPair V p = some q ↔ V.key.dec p.1 = .ok q.1 ∧ V.deserialize p.2 = some q.2 := by
  obtain ⟨a, x⟩ := q
  unfold deserPair
  cases V.key.dec p.1 with
  | ok k => cases V.deserialize p.2 <;> simp
  | err => simp
  | panic => simp

theorem serReduced_ok {r : TRed V.Value} {b : Bytes} :
    serReduced V r = .ok b ↔ ∃ x, r = .ok x ∧ V.serialize x = some b := by
  cases r with
  | ok x => simp only [serReduced]; cases hx : V.serialize x <;> simp [hx]
  | unimplemented => simp [serReduced]
  | error => simp [serReduced]

/-- One group of raw values: their typed form. -/
theorem deser_group {kb : Bytes} {vs : List Bytes} (hne : vs ≠ []) {ps}
    (h : deserPairs V (vs.map fun x => (kb, x)) = some ps) :
    ∃ (k : V.key.T) (xs : List V.Value), V.key.dec kb = .ok k ∧ ps = xs.map (fun x => (k, x)) ∧ xs ≠ [] := by
  have key : ∀ {vs : List Bytes} {ps} (k : V.key.T), V.key.dec kb = .ok k →
      deserPairs V (vs.map fun x => (kb, x)) = some ps →
      ∃ xs : List V.Value, ps = xs.map fun x => (k, x) := by
    intro vs
    induction vs with
    | nil => intro ps k _ h; cases h; exact ⟨[], rfl⟩
    | cons v vs ih =>
      intro ps k hk h
      rw [List.map_cons] at h
      obtain ⟨⟨a, x⟩, qs, rfl, h1, h2⟩ := deserPairs_cons.mp h
      obtain ⟨xs, rfl⟩ := ih k hk h2
      have := (deserPair_some.mp h1).1
      simp only [hk] at this
      cases this
      exact ⟨x :: xs, rfl⟩
  cases vs with
  | nil => exact absurd rfl hne
  | cons v vs =>
    have h' := h
    rw [List.map_cons] at h'
    obtain ⟨⟨k, x⟩, qs, rfl, h1, h2⟩ := deserPairs_cons.mp h'
    have hk := (deserPair_some.mp h1).1
    obtain ⟨xs, hxs⟩ := key k hk h
    refine ⟨k, xs, hk, hxs, ?_⟩
    rintro rfl
    simp at hxs

theorem erase_consistent (hv : LawfulView s V) (hc : TConsistent V) : Consistent V.erase := by
  intro gs hlen hall
  have key : ∀ (l : List (Bytes × List Bytes × Bytes)),
      (∀ g ∈ l, g.2.1 ≠ [] ∧ V.erase.reduce (g.2.1.map fun x => (g.1, x)) false = .ok g.2.2) →
      ∃ tg : List (V.key.T × List V.Value × V.Value), tg.length = l.length ∧
        (∀ g ∈ tg, g.2.1 ≠ [] ∧ V.reduce (g.2.1.map fun x => (g.1, x)) false = .ok g.2.2) ∧
        deserPairs V (l.map fun g => (g.1, g.2.2)) = some (tg.map fun g => (g.1, g.2.2)) ∧
        deserPairs V (l.flatMap fun g => g.2.1.map fun x => (g.1, x)) =
          some (tg.flatMap fun g => g.2.1.map fun x => (g.1, x)) := by
    intro l
    induction l with
    | nil => intro _; exact ⟨[], rfl, by simp, rfl, rfl⟩
    | cons g l ih =>
      intro hall
      obtain ⟨tg, i1, i2, i3, i4⟩ := ih fun g hg => hall g (List.mem_cons_of_mem _ hg)
      obtain ⟨hne, hred⟩ := hall g List.mem_cons_self
      change rawReduce V _ false = _ at hred
      unfold rawReduce at hred
      cases hd : deserPairs V (g.2.1.map fun x => (g.1, x)) with
      | none => rw [hd] at hred; cases hred
      | some ps =>
        rw [hd] at hred
        simp only at hred
        obtain ⟨x, hx, hsx⟩ := serReduced_ok.mp hred
        obtain ⟨k, xs, hk, rfl, hxs⟩ := deser_group hne hd
        refine ⟨(k, xs, x) :: tg, by simp [i1], ?_, ?_, ?_⟩
        · intro g' hg'
          rcases List.mem_cons.mp hg' with rfl | hg'
          · exact ⟨hxs, hx⟩
          · exact i2 g' hg'
        · rw [List.map_cons, List.map_cons]
          exact deserPairs_cons.mpr ⟨_, _, rfl, deserPair_some.mpr ⟨hk, hv.values x _ hsx⟩, i3⟩
        · rw [List.flatMap_cons, List.flatMap_cons]
          exact deserPairs_append hd i4
  obtain ⟨tg, i1, i2, i3, i4⟩ := key gs hall
  show rawReduce V _ true = rawReduce V _ false
  simp only [rawReduce, i3, i4]
  rw [hc tg (by rw [i1]; exact hlen) i2]

/-- The raw pairs of a query, decoded. -/
theorem pairs_deser {q : Option (QueryKey Bytes)} {es : OMap ViewEntry} {o : Sort'} {lim : Option Nat}
    {rs : List (TMapped V)} (h : collect (decodeMapped V) (queryByName es q o lim) = .ok rs) :
    deserPairs V (pairs (queryByName es q o lim)) = some (tpairs rs) := by
  generalize queryByName es q o lim = l at h ⊢
  induction l generalizing rs with
  | nil => cases h; rfl
  | cons m l ih =>
    simp only [collect] at h
    cases hm : decodeMapped V m with
    | error e => rw [hm] at h; cases h
    | ok r =>
      rw [hm] at h
      simp only at h
      cases hc : collect (decodeMapped V) l with
      | error e => rw [hc] at h; cases h
      | ok bs =>
        rw [hc] at h
        cases h
        refine deserPairs_cons.mpr ⟨(r.key, r.value), tpairs bs, rfl, deserPair_some.mpr ?_, ih hc⟩
        unfold decodeMapped at hm
        simp only
        cases hk : V.key.dec m.key with
        | err => simp only [decodeId, hk] at hm; cases hm
        | panic => simp only [decodeId, hk] at hm; cases hm
        | ok k =>
          simp only [decodeId, hk] at hm
          cases hx : V.deserialize m.value with
          | none => simp only [deserValue, hx] at hm; cases hm
          | some x =>
            simp only [deserValue, hx] at hm
            cases hh : CHeader.ofHeader C.key m.source with
            | error e => rw [hh] at hm; cases hm
            | ok hd => rw [hh] at hm; cases hm; exact ⟨rfl, rfl⟩

/-- **C74**, `reduce`: in every reachable state (stale or not), for a reduce function consistent under
re-reduction, `reduce` answers `x` if and only if the reduce function makes `x` (which can be encoded)
of the results of a query with the same key; order and limit do not matter. -/
theorem C74_reduce (hr : HasTReduce V) (hc : TConsistent V) (σ₀ σ : VSys)
    (h : ViewRun s S V first next σ₀ σ) (hm : UpToDate V σ ∨ σ₀.db.lastTid = 0)
    (b : ViewSettings V.key) (hk : KeysEncodable V.key b.key) :
    ∃ rs, query V (stored V σ) { key := b.key } = .ok rs ∧
      ∀ x, Typed.reduce V (stored V σ) b = .ok x ↔
        V.reduce (tpairs rs) false = .ok x ∧ (V.serialize x).isSome := by
  obtain ⟨D, hD, hf⟩ := h.snapshot hm
  obtain ⟨q, hq⟩ := serKey_ok hk
  obtain ⟨rs, h1, h2, -, -⟩ := query_core h.view h.wf hD hf { key := b.key } hq
  refine ⟨rs, h1, ?_⟩
  intro x
  have h3 := C33_reduce_is_reduce_of_query s h.distinct V.erase h.view.known (erase_hasReduce hr)
    (erase_consistent h.view hc) σ₀ σ h.start h.exec.raw q
  have h4 : reduceByName V.erase (stored V σ) q = serReduced V (V.reduce (tpairs rs) false) := by
    refine Eq.trans h3 ?_
    show rawReduce V _ false = _
    unfold rawReduce
    rw [show deserPairs V (pairs (queryByName (σ.db.trees.entries V.erase.name) q .ascending none)) =
      some (tpairs rs) from pairs_deser h2]
  simp only [Typed.reduce, hq, h4]
  cases hred : V.reduce (tpairs rs) false with
  | unimplemented => simp [serReduced, reducedAnswer]
  | error => simp [serReduced, reducedAnswer]
  | ok y =>
    simp only [serReduced]
    cases hy : V.serialize y with
    | none =>
      simp only [reducedAnswer, TRed.ok.injEq]
      constructor
      · intro e; cases e
      · rintro ⟨rfl, e⟩; rw [hy] at e; cases e
    | some yb =>
      simp only [reducedAnswer, h.view.values y yb hy, TRed.ok.injEq]
      constructor
      · rintro rfl; exact ⟨rfl, by rw [hy]; rfl⟩
      · rintro ⟨rfl, _⟩; rfl

/-- **C74**, `reduce_grouped`: one group per selected key that has mappings, in key order; the value of
the group is what the reduce function makes of the results of a query for that key. -/
theorem C74_reduce_grouped (hr : HasTReduce V) (σ₀ σ : VSys)
    (h : ViewRun s S V first next σ₀ σ) (hm : UpToDate V σ ∨ σ₀.db.lastTid = 0)
    (b : ViewSettings V.key) (hk : KeysEncodable V.key b.key) :
    ∃ gs, Typed.reduceGrouped V (stored V σ) b = .ok gs ∧
      (∀ k x, (k, x) ∈ gs ↔ SelectsBy (Before V.key) b.key k ∧
        ∃ rs, query V (stored V σ) { key := some (.matches_ k) } = .ok rs ∧ rs ≠ [] ∧
          V.reduce (tpairs rs) false = .ok x) ∧
      gs.Pairwise fun x y => x.1 = y.1 ∨ Before V.key x.1 y.1 := by
  obtain ⟨D, hD, hf⟩ := h.snapshot hm
  obtain ⟨q, hq⟩ := serKey_ok hk
  obtain ⟨h3, hsorted⟩ := C33_grouped s h.distinct V.erase h.view.known (erase_hasReduce hr) σ₀ σ h.start
    h.exec.raw q
  have hat : ∀ kb, σ.at V.erase kb = mappingsOf ((stored V σ).get kb) := fun _ => rfl
  have hquery : ∀ kb, pairs (queryByName (stored V σ) (some (.matches_ kb)) .ascending none) =
      (mappingsOf ((stored V σ).get kb)).map fun m => (kb, m.value) := by
    intro kb
    rw [query_pairs]
    simp only [viewIterator]
    cases hg : (stored V σ).get kb with
    | none => rfl
    | some e => simp [mappingsOf, (h.wf kb e hg).1]
  -- every key with mappings has a typed key, and its mappings have a typed form
  have htyped : ∀ kb, mappingsOf ((stored V σ).get kb) ≠ [] → ∃ k, V.key.enc k = some kb ∧
      kb.length < 2 ^ 64 := by
    intro kb hne
    obtain ⟨m, hmm⟩ := List.exists_mem_of_ne_nil _ hne
    obtain ⟨id, d, cd, k, x, -, -, p3, p4, -⟩ := (stored_typed h.view h.wf hD hf kb m).mp hmm
    exact ⟨k, p4, emits_fits h.view p3 p4⟩
  have hone : ∀ k kb, V.key.enc k = some kb → ∃ rs,
      query V (stored V σ) { key := some (.matches_ k) } = .ok rs ∧
      (rs = [] ↔ mappingsOf ((stored V σ).get kb) = []) ∧
      ∀ x xb, V.serialize x = some xb →
        (V.erase.reduce ((mappingsOf ((stored V σ).get kb)).map fun m => (kb, m.value)) false = .ok xb ↔
         ∃ y, V.reduce (tpairs rs) false = .ok y ∧ V.serialize y = some xb) := by
    intro k kb hkb
    have hser : serKey V.key (some (.matches_ k)) = .ok (some (.matches_ kb)) := by
      simp [serKey, serialized, hkb]
    obtain ⟨rs, g1, g2, -, -⟩ := query_core h.view h.wf hD hf { key := some (.matches_ k) } hser
    have hp := pairs_deser g2
    rw [hquery] at hp
    refine ⟨rs, g1, ?_, ?_⟩
    · have := congrArg List.length (collect_map g2)
      simp only [List.length_map] at this
      have h2 := congrArg List.length (hquery kb)
      simp only [pairs, List.length_map] at h2
      rw [← List.length_eq_zero_iff, ← List.length_eq_zero_iff, ← this, h2]
    · intro x xb hx
      show rawReduce V _ false = _ ↔ _
      simp only [rawReduce, hp]
      exact serReduced_ok
  -- decoding a raw group
  have hgroup : ∀ p ∈ Store.reduceGrouped (stored V σ) q, ∃ k x, decodeGroup V p = .ok (k, x) ∧
      V.key.enc k = some p.1 ∧ p.1.length < 2 ^ 64 ∧ V.serialize x = some p.2 := by
    rintro ⟨kb, xb⟩ hp
    obtain ⟨hsel, hne, hred⟩ := (h3 kb xb).mp hp
    obtain ⟨k, hkb, hlen⟩ := htyped kb hne
    rw [hat] at hred
    change rawReduce V _ false = _ at hred
    unfold rawReduce at hred
    cases hd : deserPairs V ((mappingsOf ((stored V σ).get kb)).map fun m => (kb, m.value)) with
    | none => rw [hd] at hred; cases hred
    | some ps =>
      rw [hd] at hred
      obtain ⟨x, -, hx⟩ := serReduced_ok.mp hred
      exact ⟨k, x, by simp only [decodeGroup, decodeId, h.view.key k kb hkb hlen, deserValue,
        h.view.values x xb hx], hkb, hlen, hx⟩
  obtain ⟨gs, hgs, -⟩ := collect_ok (f := decodeGroup V) (l := Store.reduceGrouped (stored V σ) q)
    fun p hp => let ⟨k, x, e, _⟩ := hgroup p hp; ⟨(k, x), e⟩
  refine ⟨gs, by simp only [Typed.reduceGrouped, hq, hgs], ?_, ?_⟩
  · intro k x
    rw [collect_mem hgs]
    constructor
    · rintro ⟨⟨kb, xb⟩, hp, he⟩
      obtain ⟨k', x', e1, e2, e3, e4⟩ := hgroup _ hp
      rw [he] at e1; cases e1
      obtain ⟨hsel, hne, hred⟩ := (h3 kb xb).mp hp
      obtain ⟨rs, g1, g2, g3⟩ := hone k kb e2
      refine ⟨(selects_iff h.view.key hq e2 e3).mp hsel, rs, g1, fun e => hne (g2.mp e), ?_⟩
      obtain ⟨y, hy, hyb⟩ := (g3 x xb e4).mp hred
      have h5 := h.view.values y xb hyb
      rw [h.view.values x xb e4] at h5
      cases h5
      exact hy
    · rintro ⟨hsel, rs, g1, g2, g3⟩
      cases hkb : V.key.enc k with
      | none => simp [query, serKey, serialized, hkb] at g1
      | some kb =>
        obtain ⟨rs', f1, f2, f3⟩ := hone k kb hkb
        rw [g1] at f1
        cases f1
        have hne : mappingsOf ((stored V σ).get kb) ≠ [] := fun e => g2 (f2.mpr e)
        obtain ⟨k', hkb', hlen⟩ := htyped kb hne
        cases hg : (stored V σ).get kb with
        | none => rw [hg] at hne; exact absurd rfl hne
        | some e =>
          have hred := vexec_red h.distinct h.view.known (erase_hasReduce hr) h.start h.exec.raw kb e hg
          have hmem : (kb, e.reduced) ∈ Store.reduceGrouped (stored V σ) q := by
            refine (h3 kb e.reduced).mpr ⟨(selects_iff h.view.key hq hkb hlen).mpr hsel, ?_, ?_⟩
            · exact hne
            · rw [hat, hg]; exact hred
          obtain ⟨k2, x2, e1, e2, e3, e4⟩ := hgroup _ hmem
          have := enc_inj h.view.key hlen e2 hkb
          subst this
          obtain ⟨y, hy, hyb⟩ := (f3 x2 _ e4).mp (by rw [hg]; exact hred)
          rw [g3] at hy
          cases hy
          have h5 := h.view.values x _ hyb
          rw [h.view.values x2 _ e4] at h5
          cases h5
          exact ⟨_, hmem, e1⟩
  · refine collect_pairwise hgs hsorted ?_
    rintro p hp p' hp' x y hx hy hle
    obtain ⟨k1, x1, e1, e2, e3, e4⟩ := hgroup _ hp
    rw [hx] at e1; cases e1
    obtain ⟨k2, x2, f1, f2, f3, f4⟩ := hgroup _ hp'
    rw [hy] at f1; cases f1
    rcases bytes_le_iff.mp hle with e | e
    · exact .inl (enc_inj h.view.key e3 e2 (by rw [f2, e]))
    · exact .inr ⟨_, _, e2, f2, e⟩

end Bonsai.Typed
