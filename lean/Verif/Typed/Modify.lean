import Verif.Typed.C71

/-!
# Model of `CollectionDocument::modify` and `refresh`

`crates/bonsaidb-core/src/document/collection.rs:142-292`.  `modify` is a loop of calls on the
database (`update`, and `get` on a retry); between two of its calls any other call of any task may
run.  The `_async` variants (200-235 and 296-305) are the same statements with `.await`.
-/

namespace Bonsai.Typed
open Bonsai Bonsai.Names Bonsai.Query Bonsai.Store

/-- The caller's `modifier`, document/collection.rs:142-156 (`FnMut(&mut Self) -> R`): what it makes
of the document and what it returns.  The number of the call (0 for the first) stands for the state a
`FnMut` carries from call to call. -/
abbrev Modifier (C : Coll) (R : Type) := Nat → CDoc C → CDoc C × R

/-- Where a running `modify` is between two calls on the database. -/
inductive Phase (C : Coll) (R : Type) where
  /-- The modifier has been called for the `n`-th time with `given`; next is `self.update(connection)`
  (line 182). -/
  | update (n : Nat) (given doc : CDoc C) (r : R)
  /-- There was a conflict; next is `C::get(&self.header.id, connection)` (174). -/
  | get (n : Nat) (doc : CDoc C)

/-- `let result = modifier(&mut *self)`, document/collection.rs:181. -/
def callModifier {C : Coll} {R : Type} (f : Modifier C R) (n : Nat) (d : CDoc C) : Phase C R :=
  .update n d (f n d).1 (f n d).2

/-- How a step of `modify` ends: it goes on, or it returns with `*self` as it is then. -/
inductive Next (C : Coll) (R : Type) where
  | running (ph : Phase C R)
  | finished (r : Except TErr R) (self : CDoc C)

/-- The match on the result of the update, document/collection.rs:182-185: only a document conflict
goes round the loop again. -/
def afterUpdate {C : Coll} {R : Type} (n : Nat) (doc : CDoc C) (r : R) : Except TErr (CDoc C) → Next C R
  | .error (.db (.conflict _ _)) => .running (.get n doc)
  | .error e => .finished (.error e) doc
  | .ok d => .finished (.ok r) d

/-- The reload before a retry, document/collection.rs:173-179, and the call of the modifier (181). -/
def afterGet {C : Coll} {R : Type} (f : Modifier C R) (n : Nat) (doc : CDoc C) :
    Except TErr (Option (CDoc C)) → Next C R
  | .error e => .finished (.error e) doc
  | .ok none =>
    match documentId C.key doc.header.id with
    | .ok id => .finished (.error (.db (.notFound C.name id))) doc
    | .error e => .finished (.error e) doc
  | .ok (some d) => .running (callModifier f (n + 1) d)

/-- One call on the database by a running `modify`, document/collection.rs:165-186. -/
def stepModify {R : Type} (s : Schema) (C : Coll) (f : Modifier C R) (db : Db) (tid : Nat) :
    Phase C R → Next C R × Db
  | .update n _ doc r => (afterUpdate n doc r (update s C db tid doc).1, (update s C db tid doc).2)
  | .get n doc => (afterGet f n doc (get C db doc.header.id), db)

/-- `CollectionDocument::refresh`, document/collection.rs:287-292. -/
def refresh (C : Coll) (db : Db) (d : CDoc C) : Except TErr (CDoc C) :=
  match documentId C.key d.header.id with
  | .error e => .error e
  | .ok id =>
    match getDoc db C.name id with
    | none => .error (.db (.notFound C.name id))
    | some doc => CDoc.ofDocument C doc

/-! ## Any number of tasks -/

/-- The database and the `modify` calls now running, by task. -/
structure World (C : Coll) (R : Type) where
  db : Db
  tasks : Nat → Option (Modifier C R × Phase C R)

/-- What happens: a task calls `modify` on a document it holds (if it was in one, that one is dropped,
as a future can be), a running `modify` makes its next call, or anything else is done to the
database. -/
inductive Ev (C : Coll) (R : Type) where
  | start (i : Nat) (f : Modifier C R) (d : CDoc C)
  | step (i : Nat) (tid : Nat)
  | env (e : Event C)

/-- What is seen of it. -/
inductive Out (C : Coll) (R : Type) where
  | started
  | idle
  | running
  | finished (r : Except TErr R) (self : CDoc C)
  | env (a : EvAnswer C)

/-- `f` with the value at `i` replaced. -/
def setAt {α : Type} (f : Nat → α) (i : Nat) (v : α) : Nat → α := fun j => if j = i then v else f j

/-- The step of task `i` (the loop of document/collection.rs:165-186). -/
def stepTask {R : Type} (s : Schema) (C : Coll) (w : World C R) (i tid : Nat) : Out C R × World C R :=
  match w.tasks i with
  | none => (.idle, w)
  | some (f, ph) =>
    match stepModify s C f w.db tid ph with
    | (.running ph', db') => (.running, ⟨db', setAt w.tasks i (some (f, ph'))⟩)
    | (.finished r d, db') => (.finished r d, ⟨db', setAt w.tasks i none⟩)

/-- Anything else. -/
def stepEnv (s : Schema) (C : Coll) (dflt : CHeader C.key) (db : Db) : Event C → EvAnswer C × Db
  | .call tid c => (.call (run s C dflt db tid c).1, (run s C dflt db tid c).2)
  | .other tid ops => (.other, (applyToRoots s db tid ops).2)

/-- One event. -/
def stepWorld {R : Type} (s : Schema) (C : Coll) (dflt : CHeader C.key) (w : World C R) :
    Ev C R → Out C R × World C R
  | .start i f d => (.started, ⟨w.db, setAt w.tasks i (some (f, callModifier f 0 d))⟩)
  | .step i tid => stepTask s C w i tid
  | .env e => (.env (stepEnv s C dflt w.db e).1, ⟨(stepEnv s C dflt w.db e).2, w.tasks⟩)

/-- A history. -/
def exec {R : Type} (s : Schema) (C : Coll) (dflt : CHeader C.key) :
    World C R → List (Ev C R) → List (Out C R) × World C R
  | w, [] => ([], w)
  | w, e :: es =>
    let r := stepWorld s C dflt w e
    let rest := exec s C dflt r.2 es
    (r.1 :: rest.1, rest.2)

/-- The empty database and nothing running. -/
def World.init (C : Coll) (R : Type) : World C R := ⟨.empty, fun _ => none⟩

/-! ## Specification: a modification is one atomic step -/

/-- The modifications in progress: the modifier and the key. -/
abbrev Jobs (C : Coll) (R : Type) := Nat → Option (Modifier C R × C.key.T)

/-- A successful modification of `k`: in one step the modifier is applied to the contents the map has
for `k` at that moment, and the result is what the map has afterwards.  `self` shows it. -/
def Modified {R : Type} (dg : Bytes → Bytes) (C : Coll) (f : Modifier C R) (k : C.key.T) (m : TMap C)
    (r : R) (self : CDoc C) (m' : TMap C) : Prop :=
  ∃ a n x rev y, m k = some (n, x) ∧ IsRev dg C n x rev ∧ f a ⟨⟨k, rev⟩, x⟩ = (⟨⟨k, rev⟩, y⟩, r) ∧
    WriteSpec dg C m k n x y (.ok self) m'

/-- Why a modification of `k` fails. -/
inductive ModifyFails {R : Type} (s : Schema) (C : Coll) (f : Modifier C R) (k : C.key.T) (m : TMap C) :
    TErr → Prop
  | badKey {e} (h : BadKey C.key k e) : ModifyFails s C f k m e
  | missing {id} (hn : m k = none) (hid : C.key.enc k = some id) :
      ModifyFails s C f k m (.db (.notFound C.name id))
  | badContents {a n x rev e} (hr : IsRev s.digest C n x rev)
      (h : BadContents C (f a ⟨⟨k, rev⟩, x⟩).1.contents e) : ModifyFails s C f k m e
  | exhausted {n x} (hs : m k = some (n, x)) (hn : ¬ n + 1 < 2 ^ 32) :
      ModifyFails s C f k m (.db .panic)
  | rejected {e} (h : Rejected s C e) : ModifyFails s C f k m e

/-- What the map answers to an event. -/
inductive WSpec {R : Type} (s : Schema) (C : Coll) (first : Option C.key.T)
    (next : C.key.T → Option C.key.T) (m : TMap C) (js : Jobs C R) :
    Ev C R → Out C R → TMap C → Jobs C R → Prop
  | start {i f d} : WSpec s C first next m js (.start i f d) .started m
      (setAt js i (some (f, d.header.id)))
  | idle {i tid} (h : js i = none) : WSpec s C first next m js (.step i tid) .idle m js
  | running {i tid f k} (h : js i = some (f, k)) : WSpec s C first next m js (.step i tid) .running m js
  | modified {i tid f k r self m'} (h : js i = some (f, k))
      (hm : Modified s.digest C f k m r self m') :
      WSpec s C first next m js (.step i tid) (.finished (.ok r) self) m' (setAt js i none)
  | failed {i tid f k e self} (h : js i = some (f, k)) (hf : ModifyFails s C f k m e) :
      WSpec s C first next m js (.step i tid) (.finished (.error e) self) m (setAt js i none)
  | call {tid c r m'} (h : TSpec s C first next m c r m') :
      WSpec s C first next m js (.env (.call tid c)) (.env (.call r)) m' js
  | other {tid ops} : WSpec s C first next m js (.env (.other tid ops)) (.env .other) m js

/-- A history of the map. -/
inductive WSpecAll {R : Type} (s : Schema) (C : Coll) (first : Option C.key.T)
    (next : C.key.T → Option C.key.T) :
    TMap C → Jobs C R → List (Ev C R) → List (Out C R) → TMap C → Jobs C R → Prop
  | nil (m js) : WSpecAll s C first next m js [] [] m js
  | cons {m js e o m' js' es os m'' js''} (h : WSpec s C first next m js e o m' js')
      (hs : WSpecAll s C first next m' js' es os m'' js'') :
      WSpecAll s C first next m js (e :: es) (o :: os) m'' js''

/-- The modifier edits the contents only. -/
def KeepsHeader {C : Coll} {R : Type} (f : Modifier C R) : Prop := ∀ n d, (f n d).1.header = d.header

/-- `d` is a document as the database showed it at some time: its revision is that of its contents
(they have not been edited since). -/
def Genuine (S : Bytes → Prop) (dg : Bytes → Bytes) (C : Coll) (d : CDoc C) : Prop :=
  ∃ n b, C.serialize d.contents = some b ∧ S b ∧ d.header.revision = ⟨n, dg b⟩

/-- The events of a history: modifiers edit the contents only, `modify` is called on unedited
documents, everything written is in the set `S`. -/
def EvIn {R : Type} (S : Bytes → Prop) (dg : Bytes → Bytes) (C : Coll) : Ev C R → Prop
  | .start _ f d => KeepsHeader f ∧ Genuine S dg C d ∧
      ∀ n d' b, C.serialize (f n d').1.contents = some b → S b
  | .step _ _ => True
  | .env e => EventsIn S C [e]

end Bonsai.Typed
