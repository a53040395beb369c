import Verif.Key.Model

/-!
# What a map function emits (model)

`crates/bonsaidb-core/src/schema/view/map.rs:13-231` (`Map`, `Mappings` and its iterators),
`crates/bonsaidb-core/src/document/header.rs:35-109` (`Emit`),
`crates/bonsaidb-core/src/schema/schematic.rs:262-270` (the map function as the indexer calls it).

Headers, keys and values are any types; `Err` is the error of encoding a key.
-/

namespace Bonsai.Emit

/-- `Map`, map.rs:13-22. -/
structure Map (H K V : Type) where
  source : H
  key : K
  value : V
  deriving DecidableEq

/-- `Mappings`, map.rs:81-86. -/
inductive Mappings (H K V : Type) where
  | simple (m : Option (Map H K V))
  | list (ms : List (Map H K V))
  deriving DecidableEq

variable {H K V : Type}

/-- `Mappings::none`, map.rs:96-98. -/
def none : Mappings H K V := .simple Option.none

/-- `push`, map.rs:101-112. -/
def push (self : Mappings H K V) (mapping : Map H K V) : Mappings H K V :=
  match self with
  | .simple (some existing) => .list [existing, mapping]
  | .simple Option.none => .simple (some mapping)
  | .list vec => .list (vec ++ [mapping])

/-- The state of an iterator by value or by reference, map.rs:196-231: what an `Option` or a vector has left. -/
inductive Iter (H K V : Type) where
  | inline (m : Option (Map H K V))
  | vec (ms : List (Map H K V))
  deriving DecidableEq

/-- `into_iter`, map.rs:171-193. -/
def intoIter : Mappings H K V → Iter H K V
  | .simple o => .inline o
  | .list l => .vec l

/-- `next`, map.rs:206-211, 225-230: `Option::take`, `IntoIter::next`. -/
def Iter.next : Iter H K V → Option (Map H K V) × Iter H K V
  | .inline o => (o, .inline Option.none)
  | .vec [] => (Option.none, .vec [])
  | .vec (m :: ms) => (some m, .vec ms)

/-- The items an iterator gives until it says there are none; `fuel` bounds the calls. -/
def Iter.take : Nat → Iter H K V → List (Map H K V)
  | 0, _ => []
  | n + 1, i =>
    match i.next with
    | (Option.none, _) => []
    | (some m, i') => m :: Iter.take n i'

/-- `len`, map.rs:126-132. -/
def len : Mappings H K V → Nat
  | .simple Option.none => 0
  | .simple (some _) => 1
  | .list v => v.length

/-- `is_empty`, map.rs:135-137. -/
def isEmpty (m : Mappings H K V) : Bool := len m == 0

/-- `extend` from any iterator, map.rs:141-146: the items are pushed in turn. -/
def extend (self : Mappings H K V) (items : List (Map H K V)) : Mappings H K V := items.foldl push self

/-- The items of `mappings.into_iter()` in a `for` loop: an iterator gives at most `len` of them and then ends. -/
def drain (m : Mappings H K V) : List (Map H K V) := (intoIter m).take (len m + 1)

/-- `and`, map.rs:115-118. -/
def and (self mappings : Mappings H K V) : Mappings H K V := extend self (drain mappings)

/-- `FromIterator<Map>`, map.rs:150-154. -/
def collectMaps (items : List (Map H K V)) : Mappings H K V := extend none items

/-- `FromIterator<Self>`, map.rs:158-168: the first is taken and the others are appended. -/
def collectMappings : List (Mappings H K V) → Mappings H K V
  | [] => none
  | first :: rest => rest.foldl (fun c m => extend c (drain m)) first

/-- `emit_key_and_value`, header.rs:70-76, 100-108: the header of a typed document is encoded first. -/
def emitKeyAndValue {H' : Type} (encode : H' → Res H) (h : H') (k : K) (v : V) : Res (Mappings H K V) :=
  match encode h with
  | .ok h => .ok (.simple (some ⟨h, k, v⟩))
  | .err => .err
  | .panic => .panic

/-- `emit`, header.rs:37-39. -/
def emit {H' : Type} (encode : H' → Res H) (h : H') : Res (Mappings H Unit Unit) := emitKeyAndValue encode h () ()

/-- `emit_if`, header.rs:43-49. -/
def emitIf {H' : Type} (encode : H' → Res H) (h : H') (condition : Bool) : Res (Mappings H Unit Unit) :=
  if condition then emit encode h else .ok none

/-- `emit_key`, header.rs:52-54. -/
def emitKey {H' : Type} (encode : H' → Res H) (h : H') (k : K) : Res (Mappings H K Unit) := emitKeyAndValue encode h k ()

/-- `emit_value`, header.rs:57-59. -/
def emitValue {H' : Type} (encode : H' → Res H) (h : H') (v : V) : Res (Mappings H Unit V) :=
  emitKeyAndValue encode h () v

/-- `Serialized`, map.rs:339-348. -/
structure Serialized (H : Type) where
  source : H
  key : Bytes
  value : Bytes
  deriving DecidableEq

/-- `Map::serialized`, map.rs:26-41. -/
def serialize (key : K → Res Bytes) (value : V → Res Bytes) (m : Map H K V) : Res (Serialized H) :=
  match key m.key with
  | .ok k =>
    match value m.value with
    | .ok v => .ok ⟨m.source, k, v⟩
    | .err => .err
    | .panic => .panic
  | .err => .err
  | .panic => .panic

/-- `collect::<Result<Vec<_>, _>>()`: ends at the first error. -/
def collectRes {α β : Type} (f : α → Res β) : List α → Res (List β)
  | [] => .ok []
  | a :: as =>
    match f a with
    | .ok b =>
      match collectRes f as with
      | .ok bs => .ok (b :: bs)
      | .err => .err
      | .panic => .panic
    | .err => .err
    | .panic => .panic

/-- The map function as the indexer calls it, schematic.rs:262-270. -/
def mapSerialized (key : K → Res Bytes) (value : V → Res Bytes) (mapped : Res (Mappings H K V)) :
    Res (List (Serialized H)) :=
  match mapped with
  | .ok m => collectRes (serialize key value) ((intoIter m).take (len m + 1))
  | .err => .err
  | .panic => .panic

/-! ## Programs -/

/-- What a map function can do to build its result. -/
inductive Build (H K V : Type) where
  | none
  | emit (h : H) (k : K) (v : V)
  | emitIf (condition : Bool) (h : H) (k : K) (v : V)
  | push (b : Build H K V) (h : H) (k : K) (v : V)
  | and (b c : Build H K V)
  | extend (b : Build H K V) (items : List (Map H K V))
  | collect (items : List (Map H K V))
  | collectTwo (b c : Build H K V)
  | collectMany (n : Nat) (f : Fin n → Build H K V)

/-- What the program makes. -/
def Build.run : Build H K V → Mappings H K V
  | .none => Emit.none
  | .emit h k v => .simple (some ⟨h, k, v⟩)
  | .emitIf c h k v => if c then .simple (some ⟨h, k, v⟩) else Emit.none
  | .push b h k v => Emit.push b.run ⟨h, k, v⟩
  | .and b c => Emit.and b.run c.run
  | .extend b items => Emit.extend b.run items
  | .collect items => collectMaps items
  | .collectTwo b c => collectMappings [b.run, c.run]
  | .collectMany _ f => collectMappings (List.ofFn fun i => (f i).run)

end Bonsai.Emit
