import Verif.Store.Model

/-!
# What a view should contain

The specification of a view, in terms of the user's `map` function and the documents of the
collection only: no trees, batches, document maps or invalidation.
-/

namespace Bonsai.Store
open Bonsai Bonsai.Names

/-- The last value a map result gives a key. -/
def lastValue : List (Bytes × Bytes) → Bytes → Option Bytes
  | [], _ => none
  | kv :: r, key => (lastValue r key).or (if kv.1 = key then some kv.2 else none)

/-- The one mapping a document contributes to a key of the view: the document's header and the last
value its map emits for the key; nothing when there is no document or it does not emit the key. -/
def expect (v : View) (d : Option Document) (key : Bytes) : Option EntryMapping :=
  d.bind fun d => (v.map d).bind fun ms => (lastValue ms key).map fun x => ⟨d.header, x⟩

/-- The document emits the pair. -/
def Emits (v : View) (d : Document) (key value : Bytes) : Prop :=
  ∃ ms, v.map d = some ms ∧ (key, value) ∈ ms

/-- The map function never emits a key twice for one document. -/
def EmitsOnce (v : View) : Prop :=
  ∀ d ms, v.map d = some ms → (ms.map (·.1)).Nodup

/-- The mapping of one document in a list of mappings. -/
def findId (ms : List EntryMapping) (id : Bytes) : Option EntryMapping :=
  ms.find? fun m => m.source.id = id

/-- The mapping of one document at a key of the stored view. -/
def found (es : OMap ViewEntry) (key id : Bytes) : Option EntryMapping :=
  (es.get key).bind fun e => findId e.mappings id

/-- A stored view is well formed: entries are stored under their own key, have at least one mapping,
and at most one per document. -/
def ViewWF (es : OMap ViewEntry) : Prop :=
  ∀ key e, es.get key = some e →
    e.key = key ∧ e.mappings ≠ [] ∧ (e.mappings.map fun m => m.source.id).Nodup

/-- The stored view shows, for the document `id`, exactly what `d` maps to (and the map of `d` did
not fail). -/
def Shows (v : View) (es : OMap ViewEntry) (id : Bytes) (d : Option Document) : Prop :=
  (∀ x, d = some x → (v.map x).isSome) ∧ ∀ key, found es key id = expect v d key

/-- The document map records exactly the keys the view holds for a document. -/
def Recorded (es : OMap ViewEntry) (dm : OMap (List Bytes)) (id : Bytes) : Prop :=
  ∀ key, key ∈ (dm.get id).getD [] ↔ (found es key id).isSome

end Bonsai.Store
