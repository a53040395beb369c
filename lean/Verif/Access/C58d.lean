import Verif.Access.C58c
import Verif.KV.C37
import Verif.Views.C34

/-!
# C58: where the permissions are not what is documented
-/
set_option linter.unusedSimpArgs false
set_option linter.unusedVariables false

namespace Bonsai.Access
open Bonsai Bonsai.Names Bonsai.Store Bonsai.Query

variable {F : Type}

/-- A database nobody has used yet. -/
def fresh (kv : KV.St F) : World F where
  db := .empty
  versions := fun _ => none
  checked := []
  status := fun _ => none
  jobs := []
  kv := kv
  subscribers := 0
  relay := []
  published := []
  compacted := []

/-- A session that holds exactly these permissions. -/
def only (ps : List (Resource × Act)) : Sess := some fun r a => decide ((r, a) ∈ ps)

/-- Insert two documents with the same contents into the example collection. -/
def twoDocs : Request F := .apply exInsertTwo 1

/-! ## `delete_docs` -/

/-- **C58 fails** for `delete_docs`: a session that lacks `DeleteDocs` on the view gets from it what a
handle without restrictions gets, and deletes the same documents, if it may delete the documents of the
collection one by one — whatever the database holds. -/
theorem C58_violated_delete_docs_unchecked [KV.FloatOps F] (s : Schema) (dbName : String) (sess : Sess)
    (w : World F) (n : VName) (key : Option (QueryKey Bytes)) (p : Policy) (tid : Nat)
    (_hno : sess.allows (.view dbName n) .deleteDocs = false)
    (hdel : ∀ id, sess.allows (.document dbName n.collection id) .delete = true)
    (hlast : sess.allows (.database dbName) .getLastId = true) (hk : Kind dbName w) :
    (perform s dbName sess w (.deleteDocs n key p tid)).1 =
        (perform s dbName none w (.deleteDocs n key p tid)).1 ∧
      SameData (perform s dbName sess w (.deleteDocs n key p tid)).2
        (perform s dbName none w (.deleteDocs n key p tid)).2 := by
  have hs : Alike dbName (perform s dbName sess w (.deleteDocs n key p tid))
      (perform s dbName none w (.deleteDocs n key p tid)) :=
    respond_alike (deleteDocs_alike hk hlast hdel key p tid) _
  exact ⟨hs.result, hs.data⟩

/-- After two inserts and a query that maps them, by a handle without restrictions. -/
def mappedTwo (kv : KV.St F) [KV.FloatOps F] : World F :=
  run (exWith exLazy) "db" (fresh kv)
    [.call none twoDocs, .call none (.query exVName none .ascending none .updateBefore)]

/-- A session with no permission but to delete documents and to read the last transaction id. -/
def deleter : Sess := some fun r a =>
  match r, a with
  | .document .., .delete => true
  | .database _, .getLastId => true
  | _, _ => false

/-- The number a call returned. -/
def number? : Except Err (Response F) → Option Nat
  | .ok (.number n) => some n
  | _ => none

/-- How many entries a query returned. -/
def found? : Except Err (Response F) → Option Nat
  | .ok (.mapped ms) => some ms.length
  | _ => none

/-- The call was refused. -/
def denied : Except Err (Response F) → Bool
  | .error .permissionDenied => true
  | _ => false

/-- An empty key-value store. -/
def noKeys : KV.St Unit := .new .immediate 0 .empty []

/-- The session of the theorem above meets its conditions, in a state that is reached, and does delete
both documents. -/
theorem deleter_deletes :
    deleter.allows (.view "db" exVName) .deleteDocs = false ∧
    deleter.allows (.database "db") .getLastId = true ∧
    (∀ id, deleter.allows (.document "db" exC id) .delete = true) ∧ Kind "db" (mappedTwo noKeys) ∧
    ((mappedTwo noKeys).db.trees.docs exC).keys = [[7], [8]] ∧
    number? (perform (exWith exLazy) "db" deleter (mappedTwo noKeys)
      (.deleteDocs exVName none .noUpdate 9)).1 = some 2 ∧
    ((perform (exWith exLazy) "db" deleter (mappedTwo noKeys)
      (.deleteDocs exVName none .noUpdate 9)).2.db.trees.docs exC).keys = [] := by
  refine ⟨rfl, rfl, fun _ => rfl, ?_, by decide +kernel, by decide +kernel, by decide +kernel⟩
  intro j hj
  exact absurd hj (by
    have : (mappedTwo noKeys).jobs.length = 0 := by decide +kernel
    rw [List.length_eq_zero_iff.mp this]; simp)

/-- **C58 fails**: a session without any permission at all learns from `delete_docs` whether a view
has entries with a key. -/
theorem C58_violated_delete_docs_reveals (p : Resource → Act → Bool) (hp : ∀ r a, p r a = false) :
    denied (perform (exWith exLazy) "db" (some p) (mappedTwo noKeys)
      (.deleteDocs exVName (some (.matches_ [5])) .noUpdate 9)).1 = true ∧
    number? (perform (exWith exLazy) "db" (some p) (mappedTwo noKeys)
      (.deleteDocs exVName (some (.matches_ [6])) .noUpdate 9)).1 = some 0 := by
  obtain rfl : p = fun _ _ => false := funext fun r => funext fun a => hp r a
  exact ⟨by decide +kernel, by decide +kernel⟩

/-! ## `GetLastId` -/

/-- **C58 fails**: with the documented permission to query a view, but without `GetLastId` on the
database, every query that updates the view is denied — whatever the database holds. -/
theorem C58_violated_query_needs_last_id [KV.FloatOps F] (s : Schema) (dbName : String) (sess : Sess)
    (w : World F) (n : VName) (hv : (findView s n).isSome) (key : Option (QueryKey Bytes))
    (order : Sort') (limit : Option Nat) (p : Policy) (hp : p ≠ .noUpdate)
    (_hq : sess.allows (.view dbName n) .query = true)
    (hlast : sess.allows (.database dbName) .getLastId = false) :
    (perform s dbName sess w (.query n key order limit p)).1 = .error .permissionDenied := by
  obtain ⟨v, hf⟩ := Option.isSome_iff_exists.mp hv
  have hn := findView_name hf
  subst hn
  simp only [perform, World.query, hf]
  rw [guarded_yes _hq]
  cases p with
  | noUpdate => exact absurd rfl hp
  | updateBefore => simp [World.readView, World.updateView, hlast, respond]
  | updateAfter => simp [World.readView, World.updateView, hlast, respond]

example :
    (only [(.view "db" exVName, .query)]).allows (.view "db" exVName) .query = true ∧
    (only [(.view "db" exVName, .query)]).allows (.database "db") .getLastId = false ∧
    (findView (exWith exLazy) exVName).isSome ∧
    found? (perform (exWith exLazy) "db" none (mappedTwo noKeys)
      (.query exVName none .ascending none .updateBefore)).1 = some 2 :=
  ⟨by decide, by decide, rfl, by decide +kernel⟩

/-- **C58 fails**: on a database that is used for the first time, a session that may insert into a
collection cannot, if the collection has an eager view and the session lacks `GetLastId`; a handle
without restrictions can. -/
theorem C58_violated_insert_needs_last_id [KV.FloatOps F] (kv : KV.St F) (sess : Sess)
    (hi : sess.allows (.collection "db" exC) .insert = true)
    (hlast : sess.allows (.database "db") .getLastId = false) :
    (∀ res act, (res, act) ∈ documented (F := F) "db" twoDocs → sess.allows res act = true) ∧
    (perform (exWith exEager) "db" sess (fresh kv) twoDocs).1 = .error .permissionDenied ∧
    ∃ rs, (perform (exWith exEager) "db" none (fresh kv) twoDocs).1 = .ok (.results rs) := by
  refine ⟨?_, ?_, _, rfl⟩
  · intro res act h
    simp only [documented, twoDocs, exInsertTwo, List.map_cons, List.map_nil, List.mem_cons,
      List.not_mem_nil, or_false, documentedOp, or_self] at h
    cases h
    exact hi
  · have hops : (exInsertTwo.all fun op => sess.mayApply "db" op) = true := by
      simp only [exInsertTwo, List.all_cons, List.all_nil, Sess.mayApply, required, ofDoc, Bool.and_true,
        Bool.and_self]
      exact hi
    have hviews : eagerViews (exWith exEager) exInsertTwo = [exEager] := rfl
    simp only [perform, twoDocs, World.apply, hops, if_true, hviews]
    have hsc : (World.scan (fresh kv) sess exEager).1 = true := rfl
    have hl : owner (World.scan (fresh kv) sess exEager).2.jobs exEager.name = some sess := rfl
    simp only [World.scanAll, hsc, if_true, World.mapAll, World.mapNow, hl, Option.getD, World.mapWith,
      hlast]
    rfl

example : ∃ sess : Sess, sess.allows (.collection "db" exC) .insert = true ∧
    sess.allows (.database "db") .getLastId = false :=
  ⟨only [(.collection "db" exC, .insert)], by decide, by decide⟩

/-- **C58 fails**: a handle without any restriction is denied a query, because the mapping job of the
view was queued by a session that lacks `GetLastId` (it read the view without updating it, which is
permitted to it), and jobs are shared. -/
theorem C58_violated_shared_job [KV.FloatOps F] (kv : KV.St F) :
    (perform (exWith exLazy) "db" none
      (run (exWith exLazy) "db" (fresh kv)
        [.call none twoDocs,
         .call (only [(.view "db" exVName, .query)]) (.query exVName none .ascending none .noUpdate)])
      (.query exVName none .ascending none .updateBefore)).1 = .error .permissionDenied := by
  rfl

/-! ## The last transaction id -/

/-- **C58 fails** for the asynchronous handle, and so for clients of a server: every session reads the
last transaction id, whatever it may do; the blocking handle refuses the same session. -/
theorem C58_violated_async_last_id [KV.FloatOps F] (s : Schema) (dbName : String) (sess : Sess)
    (w : World F) (hlast : sess.allows (.database dbName) .getLastId = false) :
    (perform s dbName sess w .lastTransactionId).1 = .error .permissionDenied ∧
    (asyncLastTransactionId sess w).1 = (perform s dbName none w .lastTransactionId).1 ∧
    ∃ id, (asyncLastTransactionId sess w).1 = .ok (.lastId id) := by
  refine ⟨?_, rfl, _, rfl⟩
  simp only [perform]
  rw [guarded_no hlast]

/-! ## Cases for the other theorems of C58 -/

/-- A session that may do nothing is denied, and one that may do what is documented is served. -/
example [KV.FloatOps F] (kv : KV.St F) :
    ((perform (exWith exLazy) "db" (only []) (mappedTwo kv) (.get exC [7])).1 = .error .permissionDenied) ∧
    (∃ d, (perform (exWith exLazy) "db" (only [(.document "db" exC [7], .get)]) (mappedTwo kv)
      (.get exC [7])).1 = .ok (.document (some d))) ∧
    (∃ rs, (perform (exWith exLazy) "db" (only [(.collection "db" exC, .insert)]) (fresh kv) twoDocs).1
      = .ok (.results rs)) :=
  ⟨rfl, ⟨_, rfl⟩, _, rfl⟩

/-- Two calls of two sessions: the document of the first is changed by the second. -/
example [KV.FloatOps F] (kv : KV.St F) :
    let es : List (Event F) :=
      [.call (only [(.collection "db" exC, .insert)]) twoDocs,
       .call (only [(.document "db" exC [7], .overwrite)]) (.apply [⟨exC, .overwrite [7] [9]⟩] 2),
       .call (only []) (.apply [⟨exC, .overwrite [8] [9]⟩] 3)]
    ((getDoc (run (exWith exLazy) "db" (fresh kv) es).db exC [7]).map (·.contents)) = some [9] ∧
    ((getDoc (run (exWith exLazy) "db" (fresh kv) es).db exC [8]).map (·.contents)) = some [5] :=
  ⟨rfl, rfl⟩

end Bonsai.Access
