import Verif.Views.C75d
import Verif.Typed.C74b

/-!
# C75: typed queries that update their view first

C74's freshness theorem assumes that the query waited for a mapping job that is new enough.  Here that
is not assumed: the query is a call of `update_view_if_needed` that has returned.
-/
set_option linter.unusedSimpArgs false
set_option linter.unusedVariables false

namespace Bonsai.Typed
open Bonsai Bonsai.Names Bonsai.Query Bonsai.Store Bonsai.Store.Wait

variable {C : Coll} {V : TView C} {s : Schema} {S : Bytes → Prop}
variable {first : Option C.key.T} {next : C.key.T → Option C.key.T}

/-- The transactions of a client that uses the typed API on the collection. -/
def TypedClient (C : Coll) (S : Bytes → Prop) (ops : List Operation) : Prop :=
  TypedOps C ops ∧ Writes S ops

theorem qstep_typed {q q' : QSys} (h : QStep s (TypedClient C S) q q') :
    q'.sys = q.sys ∨ TVStep s S C q.sys q'.sys := by
  have hraw := qstep_sys h
  cases h with
  | transaction ha hp htid => exact .inr (.transaction (σ := q.sys) ha.1 ha.2 hp htid)
  | other => exact hraw.imp id fun h => .internal h rfl
  | start => exact hraw.imp id fun h => .internal h rfl
  | startPanics => exact .inl rfl
  | scan => exact hraw.imp id fun h => .internal h rfl
  | chunk => exact hraw.imp id fun h => .internal h rfl
  | finish => exact hraw.imp id fun h => .internal h rfl
  | fail => exact hraw.imp id fun h => .internal h rfl
  | panic => exact hraw.imp id fun h => .internal h rfl
  | complete => exact hraw.imp id fun h => .internal h rfl
  | call => exact .inl rfl
  | read => exact .inl rfl
  | check => exact .inl rfl
  | lookup => exact .inl rfl
  | receive => exact .inl rfl
  | background => exact .inl rfl
  | restart => exact hraw.imp id fun h => .internal h rfl

theorem qexec_typed {q q' : QSys} (h : QExec s (TypedClient C S) q q') :
    TVExec s S C q.sys q'.sys := by
  induction h with
  | refl => exact .refl _
  | step _ hs ih =>
    rcases qstep_typed hs with e | h
    · rw [e]; exact ih
    · exact .step ih h

/-- A typed collection and view in a process that has just started: the digest has no collisions on the
contents written, the definitions are lawful, what is stored is typed. -/
structure TypedStart (s : Schema) (S : Bytes → Prop) (V : TView C) (first : Option C.key.T)
    (next : C.key.T → Option C.key.T) (q₀ : QSys) : Prop where
  collisionFree : CollisionFree s.digest S
  distinct : DistinctViews s
  coll : Lawful s C first next
  view : LawfulView s V
  start : QStart V.erase q₀
  reach : Reachable s S q₀.db
  typed : WellTyped C q₀.db.trees.abs

/-- **C75** for typed views: a query that begins after `q₁` and has returned from updating the view in
`q₂` reads, for every primary key, exactly the selected mappings of the document with that key as it was
in some committed state after `q₁`. -/
theorem C75_typed_query_sees_earlier_commits (q₀ q₁ q₂ : QSys)
    (hst : TypedStart s S V first next q₀) (h1 : QExec s (TypedClient C S) q₀ q₁) (p n : Nat)
    (hn : NotBegun q₁ p) (h2 : QExec s (TypedClient C S) q₁ q₂)
    (hx : q₂.queries[p]? = some ⟨V.erase, true, .done, n⟩) (b : ViewSettings V.key)
    (hk : KeysEncodable V.key b.key) (hb : b.limit = none) :
    ∃ rs, query V (q₂.db.trees.entries V.name) b = .ok rs ∧ ∀ id, ∃ τ, TVExec s S C q₁.sys τ ∧
      TVExec s S C τ q₂.sys ∧
      ∀ r, r.source.id = id → (r ∈ rs ↔ SelectsBy (Before V.key) b.key r.key ∧
        ∃ d, get C τ.db id = .ok (some d) ∧ r.source = d.header ∧ TEmits V d r.key r.value) := by
  obtain ⟨q', a, c, hr⟩ := done_ready hst.distinct
    (qexec_inv hst.distinct (qinv_start hst.start) h1) hn h2 hx rfl rfl
  exact C74_query_update_before q₀.sys q₁.sys q'.sys q₂.sys
    { collisionFree := hst.collisionFree, distinct := hst.distinct, coll := hst.coll, view := hst.view,
      start := hst.start.sys, reach := hst.reach, typed := hst.typed, exec := qexec_typed h1 }
    ⟨qexec_typed a, qexec_typed c, hr⟩ b hk hb

/-- **C75**, read your writes: a client that has committed, then queries while nobody else writes to the
collection, gets exactly the selected mappings of the documents as it left them. -/
theorem C75_typed_read_your_writes (q₀ q₁ q₂ : QSys)
    (hst : TypedStart s S V first next q₀) (h1 : QExec s (TypedClient C S) q₀ q₁) (p n : Nat)
    (hn : NotBegun q₁ p) (h2 : QExec s (TypedClient C S) q₁ q₂)
    (hx : q₂.queries[p]? = some ⟨V.erase, true, .done, n⟩)
    (hquiet : ∀ τ, TVExec s S C q₁.sys τ → TVExec s S C τ q₂.sys →
      τ.db.trees.docs C.name = q₁.db.trees.docs C.name)
    (b : ViewSettings V.key) (hk : KeysEncodable V.key b.key) (hb : b.limit = none) :
    ∃ rs, query V (q₂.db.trees.entries V.name) b = .ok rs ∧ ∀ r,
      r ∈ rs ↔ SelectsBy (Before V.key) b.key r.key ∧
        ∃ d, get C q₁.db r.source.id = .ok (some d) ∧ r.source = d.header ∧ TEmits V d r.key r.value := by
  obtain ⟨rs, h3, h4⟩ := C75_typed_query_sees_earlier_commits q₀ q₁ q₂ hst h1 p n hn h2 hx b hk hb
  refine ⟨rs, h3, fun r => ?_⟩
  obtain ⟨τ, a, c, h5⟩ := h4 r.source.id
  rw [h5 r rfl]
  have : get C τ.db r.source.id = get C q₁.db r.source.id := by
    unfold get
    simp only [getDoc, hquiet τ a c]
  rw [this]

end Bonsai.Typed
