import Verif.Access.Model

/-!
# C58: what a session may not do, it cannot do
-/
set_option linter.unusedSimpArgs false
set_option linter.unusedVariables false

namespace Bonsai.Access
open Bonsai Bonsai.Names Bonsai.Store Bonsai.Query

variable {F : Type}

theorem findView_name {s : Schema} {n : VName} {v : View} (h : findView s n = some v) : v.name = n := by
  have := List.find?_some h
  simpa using this

theorem guarded_no {α : Type} {sess : Sess} {w : World F} {r : Resource} {a : Act}
    {k : Except Err α × World F} (h : sess.allows r a = false) :
    guarded sess w r a k = (.error .permissionDenied, w) := by
  simp [guarded, h]

theorem guarded_yes {α : Type} {sess : Sess} {w : World F} {r : Resource} {a : Act}
    {k : Except Err α × World F} (h : sess.allows r a = true) : guarded sess w r a k = k := by
  simp [guarded, h]

theorem all_false {α : Type} {l : List α} {p : α → Bool} {x : α} (h : x ∈ l) (hp : p x = false) :
    l.all p = false := by
  rw [List.all_eq_false]
  exact ⟨x, h, by simp [hp]⟩

theorem documented_apply (dbName : String) (op : Operation) :
    documentedOp dbName op = ((required dbName op).1, ofDoc (required dbName op).2) := by
  unfold documentedOp required
  cases op.command <;> rfl

theorem query_no {s : Schema} {dbName : String} {sess : Sess} {w : World F} {n : VName}
    {key : Option (QueryKey Bytes)} {order : Sort'} {limit : Option Nat} {p : Policy}
    (hv : (findView s n).isSome) (h : sess.allows (.view dbName n) .query = false) :
    w.query s dbName sess n key order limit p = (.error .permissionDenied, w) := by
  obtain ⟨v, hf⟩ := Option.isSome_iff_exists.mp hv
  unfold World.query
  rw [hf]
  have := findView_name hf
  subst this
  exact guarded_no h

theorem groups_no {s : Schema} {dbName : String} {sess : Sess} {w : World F} {n : VName}
    {key : Option (QueryKey Bytes)} {p : Policy}
    (hv : (findView s n).isSome) (h : sess.allows (.view dbName n) .reduce = false) :
    w.reduceGroups s dbName sess n key p = (.error .permissionDenied, w) := by
  obtain ⟨v, hf⟩ := Option.isSome_iff_exists.mp hv
  unfold World.reduceGroups
  rw [hf]
  have := findView_name hf
  subst this
  exact guarded_no h

/-- **C58**, partial (`delete_docs` is missing: see `C58_violated_delete_docs_unchecked`). A call for
which the session lacks one documented permission fails with `PermissionDenied`, whatever the database
holds, and changes nothing at all. A view the call names must be in the schema; for others the error is
`ViewNotFound`. -/
theorem C58_denied_partial [KV.FloatOps F] (s : Schema) (dbName : String) (sess : Sess) (w : World F)
    (r : Request F) (hd : ¬ r.IsDeleteDocs)
    (hv : ∀ n, r.view? = some n → (findView s n).isSome) (res : Resource) (act : Act)
    (h : (res, act) ∈ documented dbName r) (hn : sess.allows res act = false) :
    perform s dbName sess w r = (.error .permissionDenied, w) := by
  cases r with
  | apply ops tid =>
    simp only [documented, List.mem_map, documented_apply] at h
    obtain ⟨op, hop, he⟩ := h
    cases he
    have : (ops.all fun op => sess.mayApply dbName op) = false := all_false hop hn
    simp [perform, World.apply, this, respond]
  | getMultiple c ids =>
    simp only [documented, List.mem_map] at h
    obtain ⟨id, hid, he⟩ := h
    cases he
    have : (ids.all fun id => sess.allows (.document dbName c id) .get) = false := all_false hid hn
    simp [perform, World.getMany, this, respond]
  | publishAll topics payload =>
    simp only [documented, List.mem_map] at h
    obtain ⟨t, ht, he⟩ := h
    cases he
    have : (topics.all fun t => sess.allows (.topic dbName t) .publish) = false := all_false ht hn
    simp [perform, this]
  | query n key order limit p =>
    simp only [documented, List.mem_singleton] at h
    cases h
    simp only [perform]
    rw [query_no (hv _ rfl) hn]
    rfl
  | queryWithDocs n key order limit p =>
    simp only [documented, List.mem_singleton] at h
    cases h
    simp only [perform, World.queryDocs]
    rw [query_no (hv _ rfl) hn]
    rfl
  | reduce n key p =>
    simp only [documented, List.mem_singleton] at h
    cases h
    simp only [perform, World.reduceAll]
    rw [groups_no (hv _ rfl) hn]
    rfl
  | reduceGrouped n key p =>
    simp only [documented, List.mem_singleton] at h
    cases h
    simp only [perform]
    rw [groups_no (hv _ rfl) hn]
    rfl
  | deleteDocs => exact absurd trivial hd
  | _ =>
    simp only [documented, List.mem_singleton] at h
    cases h
    simp only [perform]
    exact guarded_no hn

/-! ## With the permissions -/

/-- Calls that do not touch views: no transactions and no queries. -/
def Request.NoViews : Request F → Prop
  | .apply .. => False
  | r => r.view? = none

theorem all_true {α : Type} {l : List α} {p : α → Bool} (h : ∀ x ∈ l, p x = true) : l.all p = true :=
  List.all_eq_true.mpr h

/-- **C58.** A session with the documented permissions gets from these calls exactly what a handle
without any restriction gets, and has the same effect. -/
theorem C58_permitted_plain [KV.FloatOps F] (s : Schema) (dbName : String) (sess : Sess) (w : World F)
    (r : Request F) (hp : r.NoViews)
    (h : ∀ res act, (res, act) ∈ documented dbName r → sess.allows res act = true) :
    perform s dbName sess w r = perform s dbName none w r := by
  cases r with
  | apply => exact absurd hp (by simp [Request.NoViews])
  | query => exact absurd hp (by simp [Request.NoViews, Request.view?])
  | queryWithDocs => exact absurd hp (by simp [Request.NoViews, Request.view?])
  | reduce => exact absurd hp (by simp [Request.NoViews, Request.view?])
  | reduceGrouped => exact absurd hp (by simp [Request.NoViews, Request.view?])
  | deleteDocs => exact absurd hp (by simp [Request.NoViews, Request.view?])
  | getMultiple c ids =>
    have h1 : (ids.all fun id => sess.allows (.document dbName c id) .get) = true :=
      all_true fun id hid => h _ _ (List.mem_map.mpr ⟨id, hid, rfl⟩)
    have h2 : (ids.all fun id => Sess.allows none (.document dbName c id) .get) = true :=
      all_true fun id hid => rfl
    simp only [perform, World.getMany, h1, h2, if_true]
  | publishAll topics payload =>
    have h1 : (topics.all fun t => sess.allows (.topic dbName t) .publish) = true :=
      all_true fun id hid => h _ _ (List.mem_map.mpr ⟨id, hid, rfl⟩)
    have h2 : (topics.all fun t => Sess.allows none (.topic dbName t) .publish) = true :=
      all_true fun id hid => rfl
    simp only [perform, h1, h2, if_true]
  | _ =>
    simp only [perform]
    rw [guarded_yes (h _ _ (by simp only [documented, List.mem_singleton])), guarded_yes rfl]

end Bonsai.Access
