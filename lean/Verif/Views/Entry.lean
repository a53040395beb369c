import Verif.Views.C30
import Verif.Views.Query

/-!
# The entry API of named collections (model)

`NamedCollection::load`, `entry(..).or_insert_with(..).update_with(..).retry_limit(..).execute()`:
crates/bonsaidb-core/src/schema/collection.rs:1350-1486, 1700-1812 and, with the same steps,
`AsyncEntry::execute`, 1849-1887. Every access to the database is a step of its own.
-/
set_option linter.unusedSimpArgs false
set_option linter.unusedVariables false

namespace Bonsai.Store
open Bonsai Bonsai.Names Bonsai.Query

/-- `NamedReference`, collection.rs:1518-1528: a name (as the key of the name view) or an id. -/
inductive EntryRef where
  | name (key : Bytes)
  | id (id : Bytes)

/-- What the builder was given, collection.rs:1700-1714: the document to insert (with its natural id, if
it has one) and the update. Both work on the serialized contents; the update may behave differently in each
attempt (it is `FnMut`), the attempts are numbered from 0. -/
structure EntryCall where
  ref : EntryRef
  insert : Option (Option Bytes × Bytes)
  update : Option (Nat → Bytes → Bytes)
  retry : Nat

/-- Where a caller of `execute` stands. `k` counts the refused attempts. -/
inductive EntryPhase where
  | start
  /-- the view has been read, its documents not yet (database.rs:1505-1512) -/
  | fetching (ids : List Bytes)
  /-- about to apply the update to `d` and send it (collection.rs:1736-1737) -/
  | trying (d : Document) (k : Nat)
  /-- about to load the document again (collection.rs:1743) -/
  | reloading (id : Bytes) (k : Nat)
  /-- about to push (collection.rs:1759-1760) -/
  | inserting
  | returned (d : Option Document)
  | failed (e : Err)

/-- The database and the callers. -/
structure EntrySys where
  v : VSys
  callers : Nat → EntryPhase

/-- The keys of the view query of `load_document`, collection.rs:1452-1454: the ids of the documents that
the view has under the name. -/
def namedIds (t : Trees) (nv : View) (key : Bytes) : List Bytes :=
  (queryByName (t.entries nv.name) (some (.matches_ key)) .ascending none).map (·.source.id)

/-- The documents of the query, collection.rs:1455-1459: the first of the `BTreeMap`. -/
def firstDoc (t : Trees) (c : QName) (ids : List Bytes) : Option Document :=
  ((getDocs t c ids).foldl (fun (m : OMap Document) d => m.set d.header.id d) .empty).list.head?.map (·.2)

/-- What follows the load, collection.rs:1734-1764. -/
def EntryCall.loaded (call : EntryCall) : Option Document → EntryPhase
  | some d => if call.update.isSome then .trying d 0 else .returned (some d)
  | none => if call.insert.isSome then .inserting else .returned none

/-- What follows a reload, collection.rs:1743-1747. -/
def reloaded (k : Nat) : Option Document → EntryPhase
  | some d => .trying d k
  | none => .returned none

/-- What follows a conflict, collection.rs:1739-1751. -/
def EntryCall.refused (call : EntryCall) (k : Nat) (e : Err) (id : Bytes) : EntryPhase :=
  if k < call.retry then .reloading id (k + 1) else .failed e

/-- The error is a `DocumentConflict`; the id in it. -/
def Err.conflictId : Err → Option Bytes
  | .conflict _ h => some h.id
  | _ => none

/-- The document a successful write stored: the header reported by the transaction
(document/collection.rs:91-99, collection.rs:682-700). -/
def written (rs : List OpResult) (x : Bytes) : Option Document :=
  match rs with
  | [.updated _ h] => some ⟨h, x⟩
  | _ => none

/-- What a step of a call did. -/
inductive EntryEvent where
  | updated
  | inserted
  | refused
  | read
  | gaveUp
  deriving DecidableEq

/-- One step of a call: the database and its phase, before and after. Not modelled: contents that cannot be
decoded, permissions, lost connections. -/
inductive EntryMove (s : Schema) (nv : View) (call : EntryCall) :
    VSys → EntryPhase → EntryEvent → VSys → EntryPhase → Prop
  /-- `load` by name: the view is read -/
  | lookup {v key} (hr : call.ref = .name key) :
      EntryMove s nv call v .start .read v (.fetching (namedIds v.db.trees nv key))
  /-- `load` by name: its documents are read -/
  | fetch {v ids} : EntryMove s nv call v (.fetching ids) .read v
      (call.loaded (firstDoc v.db.trees nv.name.collection ids))
  /-- `load` by id -/
  | get {v id} (hr : call.ref = .id id) : EntryMove s nv call v .start .read v
      (call.loaded (getDoc v.db nv.name.collection id))
  /-- the update is accepted -/
  | accept {v d k f tid t ch rs} (hf : call.update = some f)
      (ha : prepare s v.db.trees [⟨nv.name.collection, .update d.header (f k d.contents)⟩] = .ok (t, ch, rs))
      (htid : v.db.lastTid ≤ tid) :
      EntryMove s nv call v (.trying d k) .updated (v.commit tid (some ch) t)
        (.returned (written rs (f k d.contents)))
  /-- conflict -/
  | conflict {v d k f e id} (hf : call.update = some f)
      (ha : prepare s v.db.trees [⟨nv.name.collection, .update d.header (f k d.contents)⟩] = .error e)
      (he : e.conflictId = some id) :
      EntryMove s nv call v (.trying d k) .refused v (call.refused k e id)
  /-- any other error is returned -/
  | error {v d k f e} (hf : call.update = some f)
      (ha : prepare s v.db.trees [⟨nv.name.collection, .update d.header (f k d.contents)⟩] = .error e)
      (he : e.conflictId = none) :
      EntryMove s nv call v (.trying d k) .gaveUp v (.failed e)
  | reload {v id k} : EntryMove s nv call v (.reloading id k) .read v
      (reloaded k (getDoc v.db nv.name.collection id))
  /-- the push is accepted -/
  | push {v oid x tid t ch rs} (hx : call.insert = some (oid, x))
      (ha : prepare s v.db.trees [⟨nv.name.collection, .insert oid x⟩] = .ok (t, ch, rs))
      (htid : v.db.lastTid ≤ tid) :
      EntryMove s nv call v .inserting .inserted (v.commit tid (some ch) t) (.returned (written rs x))
  | pushFails {v oid x e} (hx : call.insert = some (oid, x))
      (ha : prepare s v.db.trees [⟨nv.name.collection, .insert oid x⟩] = .error e) :
      EntryMove s nv call v .inserting .gaveUp v (.failed e)

/-- One step of a caller, or of somebody else; the label tells whose step it was and what it did. -/
inductive EntryStep (s : Schema) (S : Bytes → Prop) (nv : View) (calls : Nat → EntryCall) :
    EntrySys → Option (Nat × EntryEvent) → EntrySys → Prop
  | caller {σ i e v' p'} (h : EntryMove s nv (calls i) σ.v (σ.callers i) e v' p') :
      EntryStep s S nv calls σ (some (i, e)) ⟨v', upd σ.callers i p'⟩
  /-- a transaction of somebody else -/
  | transaction {σ tid ops t ch rs} (hw : Writes S ops)
      (ha : prepare s σ.v.db.trees ops = .ok (t, ch, rs)) (htid : σ.v.db.lastTid ≤ tid) :
      EntryStep s S nv calls σ none ⟨σ.v.commit tid (some ch) t, σ.callers⟩
  /-- anything else in the process that changes no document: mapping jobs, restarts -/
  | background {σ v'} (h : VStep s σ.v v') (hd : v'.db.trees.docs = σ.v.db.trees.docs) :
      EntryStep s S nv calls σ none ⟨v', σ.callers⟩

/-- Executions in which every committed state has the property `P`. -/
inductive EntryExec (s : Schema) (S : Bytes → Prop) (nv : View) (calls : Nat → EntryCall) (P : VSys → Prop) :
    EntrySys → List (Option (Nat × EntryEvent)) → EntrySys → Prop
  | nil {σ} (hP : P σ.v) : EntryExec s S nv calls P σ [] σ
  | snoc {σ es σ1 e σ2} (h : EntryExec s S nv calls P σ es σ1) (hs : EntryStep s S nv calls σ1 e σ2) (hP : P σ2.v) :
      EntryExec s S nv calls P σ (es ++ [e]) σ2

/-- Where executions start: a database in which the name view starts and is up to date, as after opening a
database (`VStart`), any history of it, and nobody has called yet. -/
structure EntryStart (s : Schema) (S : Bytes → Prop) (nv : View) (σ : EntrySys) : Prop where
  past : ∃ σ₀, VStart nv σ₀ ∧ (∀ id, (σ₀.db.trees.invalidated nv.name).get id = none) ∧ VExec s σ₀ σ.v
  docs : DocsWF s.digest S σ.v.db.trees.docs
  callers : ∀ i, σ.callers i = .start

/-- What callers write is in the set of contents. -/
def CallsIn (S : Bytes → Prop) (calls : Nat → EntryCall) : Prop :=
  ∀ i, (∀ f, (calls i).update = some f → ∀ k x, S x → S (f k x)) ∧
    ∀ oid x, (calls i).insert = some (oid, x) → S x

end Bonsai.Store
