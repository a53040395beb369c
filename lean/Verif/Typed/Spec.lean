import Verif.Typed.Model

/-!
# Specification of the typed API: a map from primary keys to contents

A collection is a partial map from primary keys to (revision number, contents).  Nothing here knows
about trees, ids, byte strings of contents or operation results.
-/

namespace Bonsai.Typed
open Bonsai Bonsai.Names Bonsai.Query Bonsai.Store

/-- Revision number and contents by primary key. -/
abbrev TMap (C : Coll) := C.key.T → Option (Nat × C.Contents)

/-- `m'` is `m` with the entry of `k` changed to `v`. -/
def Changed {C : Coll} (m : TMap C) (k : C.key.T) (v : Option (Nat × C.Contents)) (m' : TMap C) : Prop :=
  m' k = v ∧ ∀ j, j ≠ k → m' j = m j

/-- The revision shown for revision number `n` and contents `x`: the number and the digest of the
serialized contents. -/
def IsRev (dg : Bytes → Bytes) (C : Coll) (n : Nat) (x : C.Contents) (r : Revision) : Prop :=
  ∃ b, C.serialize x = some b ∧ r = ⟨n, dg b⟩

/-- `d` shows the entry `(n, x)` of key `k`. -/
def IsDoc (dg : Bytes → Bytes) (C : Coll) (k : C.key.T) (n : Nat) (x : C.Contents) (d : CDoc C) : Prop :=
  d.header.id = k ∧ d.contents = x ∧ IsRev dg C n x d.header.revision

/-- The key cannot be an id: it has no encoding, or one of more than 65535 bytes. -/
inductive BadKey (K : KeyTy) (k : K.T) : TErr → Prop
  | noEncoding (h : K.enc k = none) : BadKey K k .key
  | tooLong {b} (h : K.enc k = some b) (hl : 65535 < b.length) : BadKey K k .idTooLong

/-- The contents cannot be serialized. -/
inductive BadContents (C : Coll) (x : C.Contents) : TErr → Prop
  | mk (h : C.serialize x = none) : BadContents C x .serialization

/-- An eager view of the collection rejects the change. -/
inductive Rejected (s : Schema) (C : Coll) : TErr → Prop
  | mk {e} (he : ViewErr e)
      (h : ∃ v ∈ s.views, v.name.collection = C.name ∧ v.policy.isEager = true) : Rejected s C (.db e)

/-- The keys in the order in which their encodings compare. -/
def Before (K : KeyTy) (v w : K.T) : Prop := ∃ a b, K.enc v = some a ∧ K.enc w = some b ∧ a < b

/-- `k` is the automatic key: the successor of the largest key in use, or of the first value. -/
def AutoKey {C : Coll} (first : Option C.key.T) (next : C.key.T → Option C.key.T) (m : TMap C)
    (k : C.key.T) : Prop :=
  ((∀ j, m j = none) ∧ ∃ f, first = some f ∧ next f = some k) ∨
  ∃ l, m l ≠ none ∧ (∀ j, m j ≠ none → j = l ∨ Before C.key j l) ∧ next l = some k

/-- A new document under `k`: a conflict if there is one. -/
inductive InsertSpec (dg : Bytes → Bytes) (C : Coll) (m : TMap C) (k : C.key.T) (x : C.Contents) :
    Except TErr (CDoc C) → TMap C → Prop
  | ok {d m'} (hn : m k = none) (hd : IsDoc dg C k 0 x d) (hc : Changed m k (some (0, x)) m') :
      InsertSpec dg C m k x (.ok d) m'
  | conflict {n y id r} (hs : m k = some (n, y)) (hid : C.key.enc k = some id) (hr : IsRev dg C n y r) :
      InsertSpec dg C m k x (.error (.db (.conflict C.name ⟨id, r⟩))) m

/-- Write `x` over the entry `(n, y)` of `k`: nothing happens if it is the same, else the revision
number grows by one (it is 32 bits wide). -/
inductive WriteSpec (dg : Bytes → Bytes) (C : Coll) (m : TMap C) (k : C.key.T) (n : Nat)
    (y x : C.Contents) : Except TErr (CDoc C) → TMap C → Prop
  | same {d} (h : x = y) (hd : IsDoc dg C k n x d) : WriteSpec dg C m k n y x (.ok d) m
  | changed {d m'} (h : x ≠ y) (hn : n + 1 < 2 ^ 32) (hd : IsDoc dg C k (n + 1) x d)
      (hc : Changed m k (some (n + 1, x)) m') : WriteSpec dg C m k n y x (.ok d) m'
  | exhausted (h : x ≠ y) (hn : ¬ n + 1 < 2 ^ 32) : WriteSpec dg C m k n y x (.error (.db .panic)) m

/-- A push: under the natural id if the contents have one, else under the automatic key. -/
inductive PushSpec (dg : Bytes → Bytes) (C : Coll) (first : Option C.key.T)
    (next : C.key.T → Option C.key.T) (m : TMap C) (x : C.Contents) :
    Except TErr (CDoc C) → TMap C → Prop
  | natural {k r m'} (hn : C.naturalId x = some k) (h : InsertSpec dg C m k x r m') :
      PushSpec dg C first next m x r m'
  | auto {k r m'} (hn : C.naturalId x = none) (hk : AutoKey first next m k)
      (h : InsertSpec dg C m k x r m') : PushSpec dg C first next m x r m'
  | noKey (hn : C.naturalId x = none)
      (hk : ∀ k, AutoKey first next m k → ∃ e, BadKey C.key k e) :
      PushSpec dg C first next m x (.error (.db .push)) m

/-- Pushing a list: one after the other. -/
inductive PushAllSpec (dg : Bytes → Bytes) (C : Coll) (first : Option C.key.T)
    (next : C.key.T → Option C.key.T) :
    TMap C → List C.Contents → Except TErr (List (CDoc C)) → TMap C → Prop
  | nil (m) : PushAllSpec dg C first next m [] (.ok []) m
  | cons {m x xs d m' ds m''} (h : PushSpec dg C first next m x (.ok d) m')
      (hs : PushAllSpec dg C first next m' xs (.ok ds) m'') :
      PushAllSpec dg C first next m (x :: xs) (.ok (d :: ds)) m''
  | fail {m x xs e m'} (h : PushSpec dg C first next m x (.error e) m') :
      PushAllSpec dg C first next m (x :: xs) (.error e) m'
  | later {m x xs d m' e m''} (h : PushSpec dg C first next m x (.ok d) m')
      (hs : PushAllSpec dg C first next m' xs (.error e) m'') :
      PushAllSpec dg C first next m (x :: xs) (.error e) m''

/-- A key is within a range, for a given order of keys. -/
def WithinBy {α : Type} (lt : α → α → Prop) (r : Range α) (k : α) : Prop :=
  (match r.start with | .unbounded => True | .included a => a = k ∨ lt a k | .excluded a => lt a k) ∧
  (match r.stop with | .unbounded => True | .included a => k = a ∨ lt k a | .excluded a => lt k a)

/-- The listing of the map for an order of keys: exactly the entries within the range, strictly
ordered, cut after `limit` entries. -/
def Listing (dg : Bytes → Bytes) (C : Coll) (lt : C.key.T → C.key.T → Prop) (m : TMap C)
    (l : ListSettings C.key) (docs : List (CDoc C)) : Prop :=
  ∃ all : List (CDoc C),
    (∀ d, d ∈ all ↔ ∃ n, m d.header.id = some (n, d.contents) ∧
      IsRev dg C n d.contents d.header.revision ∧ WithinBy lt l.range d.header.id) ∧
    (match l.order with
      | .ascending => all.Pairwise fun a b => lt a.header.id b.header.id
      | .descending => all.Pairwise fun a b => lt b.header.id a.header.id) ∧
    docs = (match l.limit with | none => all | some n => all.take n)

/-- A bound of the range cannot be an id. -/
def BadRange (K : KeyTy) (r : Range K.T) (e : TErr) : Prop :=
  ∃ k ∈ boundKeys r.start ++ boundKeys r.stop, BadKey K k e

/-- What the map answers to a typed call, and the map afterwards. -/
inductive TSpec (s : Schema) (C : Coll) (first : Option C.key.T) (next : C.key.T → Option C.key.T)
    (m : TMap C) : TCall C → Except TErr (TAnswer C) → TMap C → Prop
  -- a call refused because of its arguments or by an eager view
  | badKey {c e} (k) (hk : k ∈ (match c with
        | .insert k _ => [k] | .overwrite k _ => [k] | .update d => [d.header.id]
        | .delete h => [h.id] | .get k => [k] | .getMultiple ks => ks
        | .push x => (C.naturalId x).toList
        | .pushAll xs => xs.filterMap C.naturalId
        | .list l => boundKeys l.range.start ++ boundKeys l.range.stop
        | .headers l => boundKeys l.range.start ++ boundKeys l.range.stop
        | .count l => boundKeys l.range.start ++ boundKeys l.range.stop))
      (h : BadKey C.key k e) : TSpec s C first next m c (.error e) m
  | badContents {c e} (x) (hx : x ∈ (match c with
        | .insert _ x => [x] | .overwrite _ x => [x] | .update d => [d.contents] | .push x => [x]
        | .pushAll xs => xs | _ => [])) (h : BadContents C x e) : TSpec s C first next m c (.error e) m
  | rejected {c e} (hc : match c with
        | .get _ | .getMultiple _ | .list _ | .headers _ | .count _ => False | _ => True)
      (h : Rejected s C e) : TSpec s C first next m c (.error e) m
  -- writes
  | push {x r m'} (h : PushSpec s.digest C first next m x r m') :
      TSpec s C first next m (.push x) (wrap .doc r) m'
  | pushAll {xs ds m'} (h : PushAllSpec s.digest C first next m xs (.ok ds) m') :
      TSpec s C first next m (.pushAll xs) (.ok (.docs ds)) m'
  | pushAllFail {xs e m'} (h : PushAllSpec s.digest C first next m xs (.error e) m') :
      TSpec s C first next m (.pushAll xs) (.error e) m
  | insert {k x r m'} (h : InsertSpec s.digest C m k x r m') :
      TSpec s C first next m (.insert k x) (wrap .doc r) m'
  | overwriteNew {k x r m'} (hn : m k = none) (h : InsertSpec s.digest C m k x r m') :
      TSpec s C first next m (.overwrite k x) (wrap .doc r) m'
  | overwrite {k x n y r m'} (hs : m k = some (n, y)) (h : WriteSpec s.digest C m k n y x r m') :
      TSpec s C first next m (.overwrite k x) (wrap .doc r) m'
  | updateMissing {d id} (hn : m d.header.id = none) (hid : C.key.enc d.header.id = some id) :
      TSpec s C first next m (.update d) (.error (.db (.notFound C.name id))) m
  | update {d n y r m'} (hs : m d.header.id = some (n, y)) (hr : IsRev s.digest C n y d.header.revision)
      (h : WriteSpec s.digest C m d.header.id n y d.contents r m') :
      TSpec s C first next m (.update d) (wrap .doc r) m'
  | updateStale {d n y id r} (hs : m d.header.id = some (n, y)) (hid : C.key.enc d.header.id = some id)
      (hr : IsRev s.digest C n y r) (hst : d.header.revision ≠ r) :
      TSpec s C first next m (.update d) (.error (.db (.conflict C.name ⟨id, r⟩))) m
  | deleteMissing {h id} (hn : m h.id = none) (hid : C.key.enc h.id = some id) :
      TSpec s C first next m (.delete h) (.error (.db (.notFound C.name id))) m
  | delete {h n y m'} (hs : m h.id = some (n, y)) (hr : IsRev s.digest C n y h.revision)
      (hc : Changed m h.id none m') : TSpec s C first next m (.delete h) (.ok .done) m'
  | deleteStale {h n y id r} (hs : m h.id = some (n, y)) (hid : C.key.enc h.id = some id)
      (hr : IsRev s.digest C n y r) (hst : h.revision ≠ r) :
      TSpec s C first next m (.delete h) (.error (.db (.conflict C.name ⟨id, h.revision⟩))) m
  -- reads
  | getMissing {k} (hn : m k = none) : TSpec s C first next m (.get k) (.ok (.found none)) m
  | get {k n x d} (hs : m k = some (n, x)) (hd : IsDoc s.digest C k n x d) :
      TSpec s C first next m (.get k) (.ok (.found (some d))) m
  | getMultiple {ks ds}
      (h : ∀ d, d ∈ ds ↔ d.header.id ∈ ks ∧ ∃ n, m d.header.id = some (n, d.contents) ∧
        IsRev s.digest C n d.contents d.header.revision)
      (hp : (ds.map (·.header.id)).Perm (ks.filter fun k => (m k).isSome)) :
      TSpec s C first next m (.getMultiple ks) (.ok (.docs ds)) m
  | list {l ds} (h : Listing s.digest C (Before C.key) m l ds) :
      TSpec s C first next m (.list l) (.ok (.docs ds)) m
  | headers {l ds hs} (h : Listing s.digest C (Before C.key) m l ds)
      (hh : hs.map Except.ok = ds.map fun d => d.header.toHeader) :
      TSpec s C first next m (.headers l) (.ok (.headers hs)) m
  | count {l ds} (h : Listing s.digest C (Before C.key) m { l with limit := none } ds) :
      TSpec s C first next m (.count l) (.ok (.count ds.length)) m

/-- A collection whose key and contents formats are lossless, defined in the schema with the id
generator of its key type. -/
structure Lawful (s : Schema) (C : Coll) (first : Option C.key.T) (next : C.key.T → Option C.key.T) :
    Prop where
  known : C.name ∈ s.collections
  key : RoundTrips C.key
  contents : ∀ x b, C.serialize x = some b → C.deserialize b = some x
  nextId : s.nextId C.name = keyNextId C.key first next

/-- The contents a call writes serialize to byte strings of the set. -/
def CallIn (S : Bytes → Prop) (C : Coll) (c : TCall C) : Prop :=
  ∀ x ∈ (match c with
    | .insert _ x => [x] | .overwrite _ x => [x] | .update d => [d.contents] | .push x => [x]
    | .pushAll xs => xs | _ => []), ∀ b, C.serialize x = some b → S b

/-- What happens to the database: a typed call on the collection, or a transaction on other
collections. -/
inductive Event (C : Coll) where
  | call (tid : Nat) (c : TCall C)
  | other (tid : Nat) (ops : List Operation)

/-- The answers. -/
inductive EvAnswer (C : Coll) where
  | call (r : Except TErr (TAnswer C))
  | other

/-- Execute the events one after the other. -/
def runAll (s : Schema) (C : Coll) (dflt : CHeader C.key) : Db → List (Event C) → List (EvAnswer C) × Db
  | db, [] => ([], db)
  | db, .call tid c :: es =>
    let r := run s C dflt db tid c
    let rest := runAll s C dflt r.2 es
    (.call r.1 :: rest.1, rest.2)
  | db, .other tid ops :: es =>
    let rest := runAll s C dflt (applyToRoots s db tid ops).2 es
    (.other :: rest.1, rest.2)

/-- What the map answers: other collections do not matter. -/
inductive TSpecAll (s : Schema) (C : Coll) (first : Option C.key.T) (next : C.key.T → Option C.key.T) :
    TMap C → List (Event C) → List (EvAnswer C) → TMap C → Prop
  | nil (m) : TSpecAll s C first next m [] [] m
  | call {m tid c r m' es rs m''} (h : TSpec s C first next m c r m')
      (hs : TSpecAll s C first next m' es rs m'') :
      TSpecAll s C first next m (.call tid c :: es) (.call r :: rs) m''
  | other {m tid ops es rs m''} (hs : TSpecAll s C first next m es rs m'') :
      TSpecAll s C first next m (.other tid ops :: es) (.other :: rs) m''

/-- The events of a history: contents in the set, other transactions on other collections. -/
def EventsIn (S : Bytes → Prop) (C : Coll) (es : List (Event C)) : Prop :=
  ∀ e ∈ es, match e with
    | .call _ c => CallIn S C c
    | .other _ ops => Writes S ops ∧ ∀ op ∈ ops, op.collection ≠ C.name

end Bonsai.Typed
