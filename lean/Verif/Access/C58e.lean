import Verif.Access.C58d

/-!
# C58: what a session reads, it may read
-/
set_option linter.unusedSimpArgs false
set_option linter.unusedVariables false

namespace Bonsai.Access
open Bonsai Bonsai.Names Bonsai.Store Bonsai.Query

variable {F : Type}

/-- The documents a response carries. -/
def Response.docs : Response F → List Document
  | .document (some d) => [d]
  | .documents ds => ds
  | .mappedDocs _ m => m.list.map (·.2)
  | _ => []

/-- The headers a response of a listing carries. -/
def Response.listed : Response F → List Header
  | .headers hs => hs
  | _ => []

theorem mem_scan_limit {V : Type} {m : OMap V} {r : Range Bytes} {o : Sort'} {limit : Option Nat}
    {k : Bytes} {x : V} (h : (k, x) ∈ scan m r o limit) : m.get k = some x := by
  rw [scan_truncate] at h
  have h' : (k, x) ∈ scan m r o none := by
    cases limit with
    | none => exact h
    | some n => exact List.mem_of_mem_take h
  exact (mem_scan.mp h').1

theorem getMany_docs {dbName : String} {sess : Sess} {w w' : World F} {c : QName} {ids : List Bytes}
    {ds : List Document} (h : World.getMany dbName sess w c ids = (.ok ds, w')) {d : Document}
    (hd : d ∈ ds) :
    w' = w ∧ ∃ id, getDoc w.db c id = some d ∧ sess.allows (.document dbName c id) .get = true := by
  unfold World.getMany at h
  split at h
  · rename_i ha
    cases h
    refine ⟨rfl, ?_⟩
    unfold getDocs at hd
    rw [List.mem_map] at hd
    obtain ⟨⟨k, x⟩, hk, rfl⟩ := hd
    obtain ⟨hk, hx⟩ := mem_getMultiple.mp hk
    exact ⟨k, hx, List.all_eq_true.mp ha k ((sortKeys_perm ids).mem_iff.mp hk)⟩
  · cases h

theorem mem_fold_set (ds : List Document) : ∀ (m : OMap Document) (x : Bytes × Document),
    x ∈ (ds.foldl (fun m d => m.set d.header.id d) m).list → x ∈ m.list ∨ x.2 ∈ ds := by
  induction ds with
  | nil => intro m x h; exact .inl h
  | cons d ds ih =>
    intro m x h
    rcases ih _ x h with h | h
    · rcases mem_insertL h with h | h
      · rw [h]; exact .inr (.head _)
      · exact .inl h
    · exact .inr (.tail _ h)

/-- **C58.** Every document a call returns is a stored document that the session may get, or of a
collection the session may list; every header a listing returns is that of a stored document of a
collection whose headers the session may list. -/
theorem C58_documents_need_permission [KV.FloatOps F] (s : Schema) (dbName : String) (sess : Sess)
    (w w' : World F) (r : Request F) (resp : Response F)
    (h : perform s dbName sess w r = (.ok resp, w')) :
    (∀ d ∈ resp.docs, ∃ c id, getDoc w'.db c id = some d ∧
      (sess.allows (.document dbName c id) .get = true ∨ sess.allows (.collection dbName c) .list = true)) ∧
    (∀ hd ∈ resp.listed, ∃ c id d, getDoc w'.db c id = some d ∧ d.header = hd ∧
      sess.allows (.collection dbName c) .listHeaders = true) := by
  have hr : ∀ {α : Type} {f : α → Response F} {q : Except Err α × World F},
      respond f q = (.ok resp, w') → ∃ a, q = (.ok a, w') ∧ f a = resp := by
    intro α f q hq
    obtain ⟨q1, q2⟩ := q
    cases q1 with
    | error e => cases hq
    | ok a => cases hq; exact ⟨a, rfl, rfl⟩
  have hg : ∀ {res : Resource} {act : Act} {k : Except Err (Response F) × World F},
      guarded sess w res act k = (.ok resp, w') → sess.allows res act = true ∧ k = (.ok resp, w') := by
    intro res act k hk
    unfold guarded at hk
    split at hk
    · rename_i ha; exact ⟨ha, hk⟩
    · cases hk
  have none : resp.docs = [] → resp.listed = [] → (∀ d ∈ resp.docs, ∃ c id, getDoc w'.db c id = some d ∧
      (sess.allows (.document dbName c id) .get = true ∨ sess.allows (.collection dbName c) .list = true)) ∧
    (∀ hd ∈ resp.listed, ∃ c id d, getDoc w'.db c id = some d ∧ d.header = hd ∧
      sess.allows (.collection dbName c) .listHeaders = true) := by
    intro h1 h2
    rw [h1, h2]
    exact ⟨by simp, by simp⟩
  cases r with
  | get c id =>
    obtain ⟨ha, hk⟩ := hg h
    cases hk
    refine ⟨?_, by simp [Response.listed]⟩
    intro d hd
    cases he : getDoc w.db c id with
    | none => rw [he] at hd; simp [Response.docs] at hd
    | some d' =>
      rw [he] at hd
      simp only [Response.docs, List.mem_singleton] at hd
      subst hd
      exact ⟨c, id, he, .inl ha⟩
  | getMultiple c ids =>
    obtain ⟨ds, hq, rfl⟩ := hr h
    refine ⟨?_, by simp [Response.listed]⟩
    intro d hd
    obtain ⟨rfl, id, h1, h2⟩ := getMany_docs hq hd
    exact ⟨c, id, h1, .inl h2⟩
  | list c ids order limit =>
    obtain ⟨ha, hk⟩ := hg h
    cases hk
    refine ⟨?_, by simp [Response.listed]⟩
    intro d hd
    simp only [Response.docs, listDocs, List.mem_map] at hd
    obtain ⟨⟨k, x⟩, hk, rfl⟩ := hd
    exact ⟨c, k, mem_scan_limit hk, .inr ha⟩
  | listHeaders c ids order limit =>
    obtain ⟨ha, hk⟩ := hg h
    cases hk
    refine ⟨by simp [Response.docs], ?_⟩
    intro hd hm
    simp only [Response.listed, listHeaders, List.mem_map] at hm
    obtain ⟨⟨k, x⟩, hk, rfl⟩ := hm
    exact ⟨c, k, x, mem_scan_limit hk, rfl, ha⟩
  | queryWithDocs n key order limit p =>
    obtain ⟨⟨ms, m⟩, hq, rfl⟩ := hr h
    refine ⟨?_, by simp [Response.listed]⟩
    intro d hd
    unfold World.queryDocs at hq
    split at hq
    · cases hq
    · rename_i ms' w1 hq1
      split at hq
      · cases hq
      · rename_i ds w2 hg2
        cases hq
        simp only [Response.docs, List.mem_map] at hd
        obtain ⟨x, hx, rfl⟩ := hd
        rcases mem_fold_set ds _ x hx with hx | hx
        · simp [OMap.empty] at hx
        · obtain ⟨rfl, id, h1, h2⟩ := getMany_docs hg2 hx
          exact ⟨n.collection, id, h1, .inl h2⟩
  | apply ops tid => obtain ⟨a, hq, rfl⟩ := hr h; exact none rfl rfl
  | query n key order limit p => obtain ⟨a, hq, rfl⟩ := hr h; exact none rfl rfl
  | reduce n key p => obtain ⟨a, hq, rfl⟩ := hr h; exact none rfl rfl
  | reduceGrouped n key p => obtain ⟨a, hq, rfl⟩ := hr h; exact none rfl rfl
  | deleteDocs n key p tid => obtain ⟨a, hq, rfl⟩ := hr h; exact none rfl rfl
  | keyOp ns key command clock =>
    obtain ⟨ha, hk⟩ := hg h
    split at hk
    · cases hk; exact none rfl rfl
    · cases hk
  | publishAll topics payload =>
    simp only [perform] at h
    split at h
    · cases h; exact none rfl rfl
    · cases h
  | _ =>
    obtain ⟨ha, hk⟩ := hg h
    cases hk
    exact none rfl rfl

/-- A query with documents, for a session that may get both. -/
example : ((match (perform (exWith exLazy) "db"
      (only [(.view "db" exVName, .query), (.document "db" exC [7], .get), (.document "db" exC [8], .get)])
      (mappedTwo noKeys) (.queryWithDocs exVName none .ascending none .noUpdate)).1 with
    | .ok r => r.docs.map (·.header.id)
    | .error _ => []) = [[7], [8]]) := by decide +kernel

end Bonsai.Access
