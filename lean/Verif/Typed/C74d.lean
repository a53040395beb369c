import Verif.Typed.C74c

/-!
# C74: no result twice, the builder, successful deletion; violations and concrete cases
-/
set_option linter.unusedSimpArgs false
set_option linter.unusedSectionVars false
set_option linter.unusedVariables false

namespace Bonsai.Typed
open Bonsai Bonsai.Names Bonsai.Query Bonsai.Store

variable {C : Coll} {V : TView C} {s : Schema} {S : Bytes → Prop}
variable {first : Option C.key.T} {next : C.key.T → Option C.key.T}

/-! ## No result twice -/

theorem viewIterator_keys_nodup {es : OMap ViewEntry} (hwf : ViewWF es) (q : Option (QueryKey Bytes))
    (hks : ∀ ks, q = some (.multiple ks) → ks.Nodup) (o : Sort') :
    ((viewIterator es q o none).map (·.key)).Nodup := by
  have hs : ∀ r, (((scan es r o none).map (·.2)).map (·.key)).Nodup := by
    intro r
    rw [scan_entry_keys hwf]
    cases o with
    | ascending =>
      exact (List.pairwise_map.mpr (scan_sorted_asc _ r)).imp
        fun {a b} (h : a < b) (e : a = b) => bytes_lt_irrefl b (e ▸ h)
    | descending =>
      exact (List.pairwise_map.mpr (scan_sorted_desc _ r)).imp
        fun {a b} (h : b < a) (e : a = b) => bytes_lt_irrefl b (e ▸ h)
  cases q with
  | none => exact hs _
  | some q => cases q with
    | range r => exact hs r
    | matches_ k =>
      simp only [viewIterator]
      cases es.get k <;> simp
    | multiple ks =>
      simp only [viewIterator]
      have h1 : ((Store.getMultiple es (sortKeys ks)).map (·.2)).map (·.key) =
          (sortKeys ks).filter fun k => (es.get k).isSome := by
        rw [← getMultiple_keys, List.map_map]
        refine List.map_congr_left ?_
        rintro ⟨k, x⟩ hp
        exact (hwf k x (mem_getMultiple.mp hp).2).1
      rw [h1]
      exact ((sortKeys_perm ks).nodup_iff.mpr (hks ks rfl)).filter _

theorem queryByName_nodup {es : OMap ViewEntry} (hwf : ViewWF es) (q : Option (QueryKey Bytes))
    (hks : ∀ ks, q = some (.multiple ks) → ks.Nodup) (o : Sort') (limit : Option Nat) :
    (queryByName es q o limit).Pairwise fun x y => ¬ (x.key = y.key ∧ x.source.id = y.source.id) := by
  refine List.Pairwise.sublist (queryByName_prefix es q o limit).sublist ?_
  have hk := viewIterator_keys_nodup hwf q hks o
  have hmem := viewIterator_mem hwf q o
  simp only [queryByName]
  generalize viewIterator es q o none = l at hk hmem ⊢
  rw [List.pairwise_flatMap]
  constructor
  · intro e he
    have hg := ((hmem e).mp he).1
    have hn := hwf.nodup e.key
    rw [hg] at hn
    rw [List.pairwise_map]
    exact (List.pairwise_map.mp hn).imp fun {a b} hne h => hne h.2
  · refine (List.pairwise_map.mp hk).imp ?_
    intro a b hne x hx y hy h
    obtain ⟨_, _, rfl⟩ := List.mem_map.mp hx
    obtain ⟨_, _, rfl⟩ := List.mem_map.mp hy
    exact hne h.1

theorem encodeAll_nodup {K : KeyTy} (hk : RoundTrips K) : ∀ {vs : List K.T} {bs},
    encodeAll K vs = some bs → vs.Nodup → (∀ b ∈ bs, b.length < 2 ^ 64) → bs.Nodup := by
  intro vs
  induction vs with
  | nil => intro bs h _ _; cases h; exact .nil
  | cons v vs ih =>
    intro bs h hn hl
    simp only [encodeAll, Option.bind_eq_some_iff, Option.map_eq_some_iff] at h
    obtain ⟨c, hc, cs, hcs, rfl⟩ := h
    obtain ⟨h1, h2⟩ := List.nodup_cons.mp hn
    refine List.nodup_cons.mpr ⟨?_, ih hcs h2 fun b hb => hl b (List.mem_cons_of_mem _ hb)⟩
    intro hin
    obtain ⟨w, hw, he⟩ := (encodeAll_mem hcs c).mp hin
    exact h1 (enc_inj hk (hl c List.mem_cons_self) hc he ▸ hw)

/-- **C74**, no duplicates: in every reachable state, stale or not, no document appears twice under one
key, in any order and with any limit (unless the caller asks for one key twice). -/
theorem C74_no_duplicates (σ₀ σ : VSys) (h : ViewRun s S V first next σ₀ σ)
    (hm : UpToDate V σ ∨ σ₀.db.lastTid = 0)
    (b : ViewSettings V.key) (hk : KeysEncodable V.key b.key)
    (hks : ∀ ks, b.key = some (.multiple ks) → ks.Nodup) :
    ∃ rs, query V (stored V σ) b = .ok rs ∧
      rs.Pairwise fun x y => ¬ (x.key = y.key ∧ x.source.id = y.source.id) := by
  obtain ⟨D, hD, hf⟩ := h.snapshot hm
  obtain ⟨q, hq⟩ := serKey_ok hk
  obtain ⟨rs, h1, h2, h3, -⟩ := query_core h.view h.wf hD hf b hq
  refine ⟨rs, h1, ?_⟩
  have hks' : ∀ ks, q = some (.multiple ks) → ks.Nodup := by
    rintro bs rfl
    cases hb : b.key with
    | none => rw [hb] at hq; cases hq
    | some qq =>
      rw [hb] at hq hk
      simp only [serKey] at hq
      cases hser : serialized V.key qq with
      | none => rw [hser] at hq; cases hq
      | some qb =>
        rw [hser] at hq
        cases hq
        cases qq with
        | matches_ v => simp only [serialized, Option.map_eq_some_iff] at hser; obtain ⟨_, _, e⟩ := hser; cases e
        | range v => simp only [serialized, Option.map_eq_some_iff] at hser; obtain ⟨_, _, e⟩ := hser; cases e
        | multiple ks =>
          simp only [serialized, Option.map_eq_some_iff] at hser
          obtain ⟨bs', hbs, e⟩ := hser
          cases e
          refine encodeAll_nodup h.view.key hbs (hks ks hb) ?_
          intro x hx
          obtain ⟨v, hv, hvx⟩ := (encodeAll_mem hbs x).mp hx
          obtain ⟨x', hx', hl⟩ := hk v hv
          rw [hvx] at hx'; cases hx'; exact hl
  refine collect_pairwise h2 (queryByName_nodup h.wf q hks' b.order b.limit) ?_
  rintro a ha a' ha' x y hx hy hne ⟨he1, he2⟩
  obtain ⟨x', g1, g2, -, -, id, d, cd, g5, g6, g7, g8, -⟩ := h3 a ha
  rw [hx] at g1; cases g1
  obtain ⟨y', f1, f2, -, -, id', d', cd', f5, f6, f7, f8, -⟩ := h3 a' ha'
  rw [hy] at f1; cases f1
  apply hne
  constructor
  · rw [he1, f2] at g2
    simpa using g2.symm
  · obtain ⟨_, a1, a2, a3⟩ := hD id d g5
    rw [g6] at a1; cases a1
    obtain ⟨_, c1, c2, c3⟩ := hD id' d' f5
    rw [f6] at c1; cases c1
    rw [g7, f7] at he2
    rw [he2, c2] at a2
    have : id' = id := by simpa using a2
    rw [g8, f8, a3, c3, this]

/-! ## The builder -/

/-- A call of the builder. -/
inductive VCall (K : KeyTy) where
  | key (k : K.T)
  | keys (ks : List K.T)
  | range (r : Range K.T)
  | ascending
  | descending
  | limit (n : Nat)

/-- The call is made. -/
def VCall.on {K : KeyTy} (b : ViewSettings K) : VCall K → ViewSettings K
  | .key k => b.withKey k
  | .keys ks => b.withKeys ks
  | .range r => b.withKeyRange r
  | .ascending => b.ascending
  | .descending => b.descending
  | .limit n => b.withLimit n

/-- The key, the order or the limit a call sets. -/
def VCall.setsKey {K : KeyTy} : VCall K → Option (QueryKey K.T)
  | .key k => some (.matches_ k)
  | .keys ks => some (.multiple ks)
  | .range r => some (.range r)
  | _ => none

def VCall.setsOrder {K : KeyTy} : VCall K → Option Sort'
  | .ascending => some .ascending
  | .descending => some .descending
  | _ => none

def VCall.setsLimit {K : KeyTy} : VCall K → Option Nat
  | .limit n => some n
  | _ => none

/-- The last of the settings made. -/
def lastSet {α β : Type} (f : α → Option β) : List α → Option β
  | [] => none
  | a :: as => (lastSet f as).or (f a)

/-- **C74**, builder: after any sequence of builder calls, the query has the last key, the last order
(ascending if none) and the last limit that were set; calls of one kind do not disturb another. -/
theorem C74_builder {K : KeyTy} (calls : List (VCall K)) :
    let b := calls.foldl VCall.on (ViewSettings.new K)
    b.key = lastSet VCall.setsKey calls ∧
    b.order = (lastSet VCall.setsOrder calls).getD .ascending ∧
    b.limit = lastSet VCall.setsLimit calls := by
  have key : ∀ (calls : List (VCall K)) (b : ViewSettings K),
      (calls.foldl VCall.on b).key = (lastSet VCall.setsKey calls).or b.key ∧
      (calls.foldl VCall.on b).order = (lastSet VCall.setsOrder calls).getD b.order ∧
      (calls.foldl VCall.on b).limit = (lastSet VCall.setsLimit calls).or b.limit := by
    intro calls
    induction calls with
    | nil => intro b; exact ⟨rfl, rfl, rfl⟩
    | cons c calls ih =>
      intro b
      obtain ⟨h1, h2, h3⟩ := ih (c.on b)
      simp only [List.foldl_cons, lastSet, h1, h2, h3]
      cases lastSet VCall.setsKey calls <;> cases lastSet VCall.setsOrder calls <;>
        cases lastSet VCall.setsLimit calls <;> cases c <;> exact ⟨rfl, rfl, rfl⟩
  obtain ⟨h1, h2, h3⟩ := key calls (ViewSettings.new K)
  refine ⟨?_, h2, ?_⟩
  · rw [h1]; exact Option.or_none
  · rw [h3]; exact Option.or_none

/-! ## Deletion succeeds -/

/-- **C74**, `delete_docs` succeeds — with the effect of `C74_delete_docs` — if the view is up to date
and nothing is committed meanwhile, no document has two selected mappings, the caller may delete and no
eager view of the collection can refuse.  (With two selected mappings it fails:
`C74_violated_delete_two_keys`.) -/
theorem C74_delete_succeeds_partial (dbName : String) (sess : Session) (σ₀ σ : VSys)
    (h : ViewRun s S V first next σ₀ σ) (hm : UpToDate V σ) (hne : NoEager s C.name)
    (hperm : ∀ hd, allowed sess (required dbName ⟨C.name, .delete hd⟩) = true)
    (b : ViewSettings V.key) (hk : KeysEncodable V.key b.key) (tid : Nat)
    (honce : ∀ rs, query V (stored V σ) { key := b.key } = .ok rs → (rs.map (·.source.id)).Nodup) :
    ∃ n db', Typed.deleteDocs s dbName sess V (stored V σ) b σ.db tid = (.ok n, db') := by
  obtain ⟨q, hq⟩ := serKey_ok hk
  have hD := h.inv.2.2.2
  obtain ⟨rs, h1, h2, h3, -⟩ := query_core h.view h.wf hD (h.found hm) { key := b.key } hq
  have hon := honce rs h1
  have hraw : ((selectedSources (σ.db.trees.entries V.erase.name) q).map (·.id)).Nodup := by
    have hp : (queryByName (stored V σ) q .ascending none).Pairwise fun x y => x.source.id ≠ y.source.id := by
      have hmap := collect_map h2
      -- distinct typed ids have distinct raw ids
      have aux : ∀ {l : List Mapped} {rs : List (TMapped V)}, l.map (decodeMapped V) = rs.map Except.ok →
          (∀ m ∈ l, ∀ r, decodeMapped V m = .ok r → decodeId C.key m.source.id = .ok r.source.id) →
          (rs.map (·.source.id)).Nodup → l.Pairwise fun x y => x.source.id ≠ y.source.id := by
        intro l
        induction l with
        | nil => intros; exact .nil
        | cons m l ih =>
          intro rs hmap hd hn
          cases rs with
          | nil => simp at hmap
          | cons r rs =>
            simp only [List.map_cons, List.cons.injEq] at hmap hn
            obtain ⟨hn1, hn2⟩ := List.nodup_cons.mp hn
            refine List.pairwise_cons.mpr ⟨?_, ih hmap.2 (fun m hm => hd m (List.mem_cons_of_mem _ hm)) hn2⟩
            intro m' hm' heq
            have : decodeMapped V m' ∈ rs.map Except.ok := by
              rw [← hmap.2]; exact List.mem_map.mpr ⟨m', hm', rfl⟩
            obtain ⟨r', hr', he'⟩ := List.mem_map.mp this
            have e1 := hd m List.mem_cons_self r hmap.1
            have e2 := hd m' (List.mem_cons_of_mem _ hm') r' he'.symm
            rw [heq, e2] at e1
            have e3 : r'.source.id = r.source.id := by simpa using e1
            exact hn1 (List.mem_map.mpr ⟨r', hr', e3⟩)
      refine aux hmap ?_ hon
      intro m hmm r hr
      obtain ⟨r', g1, -, -, -, id, d, cd, g5, g6, g7, g8, -⟩ := h3 m hmm
      rw [hr] at g1; cases g1
      obtain ⟨_, a1, a2, a3⟩ := hD id d g5
      rw [g6] at a1; cases a1
      rw [g8, a3, g7]
      exact decodeId_of h.coll.key a2
    rw [selectedSources, List.map_map]
    exact List.pairwise_map.mpr hp
  obtain ⟨n, db', hok, -⟩ := C35_succeeds_partial s h.distinct V.erase h.view.known σ₀ σ h.start h.exec.raw
    hm h.coll.known hne dbName sess tid q hperm hraw
  refine ⟨n, db', ?_⟩
  simp only [Typed.deleteDocs, hq]
  rw [show Store.deleteDocs s dbName sess C.name (stored V σ) q σ.db tid = (.ok n, db') from hok]

end Bonsai.Typed
