import Verif.Key.Model

/-!
# Key descriptions (model)

`KeyDescription::for_key`, `crates/bonsaidb-core/src/key.rs:402-514`, the `describe` functions of the key types and
the ones `#[derive(Key)]` writes, `crates/bonsaidb-macros/src/lib.rs:461-849`.
-/
set_option linter.unusedSimpArgs false
set_option linter.unusedVariables false

namespace Bonsai.Describe

/-- `KeyKind`, key.rs:274-313. -/
inductive Kind where
  | unit | u8 | u16 | u32 | u64 | u128 | usize | i8 | i16 | i32 | i64 | i128 | isize
  | signed | unsigned | bool | string | bytes
  deriving DecidableEq

/-- `CompositeKind`, key.rs:382-398. -/
inductive CKind where
  | option | result | tuple
  | struct (name : String)
  deriving DecidableEq

/-- `KeyAttibuteValue`, key.rs:315-347; the integer variants are one constructor here. -/
inductive AttrValue where
  | int (n : Int) | bool (b : Bool) | str (s : String) | bytes (b : Bytes)
  deriving DecidableEq

/-- `KeyDescription`, key.rs:401-409, and `CompositeKeyDescription`, key.rs:437-446.  The attributes, a `HashMap` in
the code, are a list of pairs with different keys. -/
inductive Desc where
  | basic (k : Kind)
  | composite (k : CKind) (fields : List Desc) (attributes : List (String × AttrValue))
  | other (name : String)

/-- A composite that `KeyDescriber` is collecting: an element of `stack`, key.rs:448-452.  `capacity` is that of the
`Vec` of fields. -/
structure Part where
  kind : CKind
  capacity : Nat
  fields : List Desc
  attributes : List (String × AttrValue)

/-- `KeyDescriber`, key.rs:448-452; the head of the list is the top of the stack. -/
structure Describer where
  stack : List Part
  result : Option Desc

/-- `KeyDescriber::default()`, key.rs:448. -/
def Describer.new : Describer := ⟨[], none⟩

/-- The capacity of a `Vec` after `push` (std, `RawVec::grow_amortized` for elements of 2 to 1024 bytes). -/
def pushCapacity (length capacity : Nat) : Nat :=
  if length = capacity then max (max (capacity * 2) (capacity + 1)) 4 else capacity

/-- `KeyDescriber::record`, key.rs:455-470; `none` is the panic of the `assert!`. -/
def record : List Part → Option Desc → Desc → Option Describer
  | [], some _, _ => none
  | [], none, d => some ⟨[], some d⟩
  | p :: rest, result, d =>
    let p' : Part := { p with fields := p.fields ++ [d], capacity := pushCapacity p.fields.length p.capacity }
    if p'.fields.length = p'.capacity then record rest result (.composite p'.kind p'.fields p'.attributes)
    else some ⟨p' :: rest, result⟩

/-- A call of a `KeyVisitor`, key.rs:244-272. -/
inductive Visit where
  | type (k : Kind)
  | other (name : String)
  | composite (k : CKind) (count : Nat)
  | attribute (key : String) (value : AttrValue)

/-- `HashMap::insert` (std). -/
def setAttr (m : List (String × AttrValue)) (k : String) (v : AttrValue) : List (String × AttrValue) :=
  m.filter (fun p => p.1 ≠ k) ++ [(k, v)]

/-- `impl KeyVisitor for KeyDescriber`, key.rs:485-514; `none` is a panic. -/
def visit (d : Describer) : Visit → Option Describer
  | .type k => record d.stack d.result (.basic k)
  | .other name => record d.stack d.result (.other name)
  | .composite k count => some { d with stack := ⟨k, count, [], []⟩ :: d.stack }
  | .attribute key value =>
    match d.stack with
    | [] => none
    | p :: rest => some { d with stack := { p with attributes := setAttr p.attributes key value } :: rest }

/-- The calls of one `describe`, in order. -/
def visits : Describer → List Visit → Option Describer
  | d, [] => some d
  | d, v :: vs => (visit d v).bind fun d => visits d vs

/-- `KeyDescriber::finish_for`, key.rs:472-482; `typeName` is `type_name::<T>()`. -/
def finishFor (typeName : String) (d : Describer) : Option Desc :=
  match d.stack with
  | [] => some (d.result.getD (.other typeName))
  | _ :: _ => none

/-- `KeyDescription::for_encoding` and `for_key`, key.rs:411-435, given the calls `describe` makes; `none` is a
panic. -/
def forVisits (typeName : String) (vs : List Visit) : Option Desc :=
  (visits .new vs).bind (finishFor typeName)

mutual
/-- A key type, as its declaration shows it. -/
inductive KTy where
  /-- A type whose `describe` is one `visit_type`: integers (key.rs:2391-2396, 2450-2455 and the variable ones, 1917-1922, 1953-1958, 1986-1991, 2019-2024, 2056-2061, 2091-2096), `bool`
  (1219-1224), `()` (1189-1194), strings (1030-1035, 1047-1052, 1141-1146), byte strings (644-649, 663-668, 761-766,
  810-815, 850-855, 910-915, 970-975). -/
  | basic (k : Kind)
  /-- A user's type whose `describe` is one `visit_other`. -/
  | other (name : String)
  /-- A tuple, key.rs:1256-1273; `TupleEncodingV1`, deprecated.rs:129-135. -/
  | tuple (fields : List KTy)
  /-- `Option`, key.rs:2182-2188; `OptionKeyV1`, deprecated.rs:230-236. -/
  | option (t : KTy)
  /-- `Result`, key.rs:2246-2253. -/
  | result (t e : KTy)
  /-- A library type that reports a named struct of one field: `Uuid` (key.rs:2118-2124), `Duration` and `SystemTime`
  (key/time.rs:27-36, 79-88), `VarInt` (key/varint.rs:202-211), `LimitedResolutionDuration` (key/time.rs:326-337), and
  `LimitedResolutionTimestamp` (key/time.rs:1186-1198), which has an attribute. -/
  | wrapper (name : String) (attributes : List (String × AttrValue)) (t : KTy)
  /-- `#[derive(Key)]` on a struct with fields in braces or parentheses (possibly none). -/
  | struct (name : String) (fields : List KTy)
  /-- `#[derive(Key)]` on a unit struct. -/
  | unitStruct
  /-- `#[derive(Key)]` on an enum; `repr` is its representation (`u8`, ...). -/
  | enum (repr : Kind) (variants : List Variant)

/-- A variant of an enum. -/
inductive Variant where
  | unit
  /-- With fields in braces or parentheses (possibly none). -/
  | fields (fs : List KTy)
end

/-- `variant.fields.is_empty()`, macros/src/lib.rs:618. -/
def Variant.isEmpty : Variant → Bool
  | .unit => true
  | .fields fs => fs.isEmpty

mutual
/-- The calls of `describe`; see `KTy` for the library types.  For derived structs: one field passes through,
macros/src/lib.rs:461-511; otherwise `visit_composite` with the number of fields and each field, 522-575, 605-613,
838-846; a unit struct is `Unit`, 593-598.  For derived enums: without data the representation, 755-777; otherwise
`visit_composite(Tuple, variants.len())`, 616-617, 806-808, 844, and what `Variant.describe` says for every variant. -/
def KTy.describe : KTy → List Visit
  | .basic k => [.type k]
  | .other n => [.other n]
  | .tuple fs => .composite .tuple fs.length :: describeAll fs
  | .option t => .composite .option 1 :: t.describe
  | .result t e => .composite .result 2 :: (t.describe ++ e.describe)
  | .wrapper n attrs t => .composite (.struct n) 1 :: ((attrs.map fun a => .attribute a.1 a.2) ++ t.describe)
  | .struct n fs =>
    if fs.length = 1 then describeAll fs else .composite (.struct n) fs.length :: describeAll fs
  | .unitStruct => [.type .unit]
  | .enum repr vs =>
    if vs.all Variant.isEmpty then [.type repr] else .composite .tuple vs.length :: describeVariants vs

/-- One `describe` after the other. -/
def describeAll : List KTy → List Visit
  | [] => []
  | t :: ts => t.describe ++ describeAll ts

/-- A variant with fields describes each of them, macros/src/lib.rs:650-722; a unit variant is `Unit`, 724-735. -/
def Variant.describe : Variant → List Visit
  | .unit => [.type .unit]
  | .fields fs => describeAll fs

/-- The variants in order, macros/src/lib.rs:620-753. -/
def describeVariants : List Variant → List Visit
  | [] => []
  | v :: vs => v.describe ++ describeVariants vs
end

/-- `KeyDescription::for_key`, key.rs:425-435. -/
def forKey (typeName : String) (t : KTy) : Option Desc := forVisits typeName t.describe

/-! ## Specification -/

mutual
/-- What the description of a type should be: its structure. -/
def KTy.shape : KTy → Desc
  | .basic k => .basic k
  | .other n => .other n
  | .tuple fs => .composite .tuple (shapes fs) []
  | .option t => .composite .option [t.shape] []
  | .result t e => .composite .result [t.shape, e.shape] []
  | .wrapper n attrs t => .composite (.struct n) [t.shape] attrs
  | .struct n fs =>
    match shapes fs with
    | [d] => d
    | ds => .composite (.struct n) ds []
  | .unitStruct => .basic .unit
  | .enum repr vs =>
    if vs.all Variant.isEmpty then .basic repr else .composite .tuple (variantShapes vs) []

def shapes : List KTy → List Desc
  | [] => []
  | t :: ts => t.shape :: shapes ts

/-- The fields of the variants, one after the other; a unit variant counts as one `Unit` field. -/
def variantShapes : List Variant → List Desc
  | [] => []
  | .unit :: vs => .basic .unit :: variantShapes vs
  | .fields fs :: vs => shapes fs ++ variantShapes vs
end

mutual
/-- The types whose description works: no empty tuple of fields anywhere (there is no empty tuple key; a derived struct
can be empty), attributes with different names, and each enum with data has as many fields (counting one for a unit
variant) as variants. -/
def KTy.Balanced : KTy → Prop
  | .basic _ => True
  | .other _ => True
  | .tuple fs => fs ≠ [] ∧ AllBalanced fs
  | .option t => t.Balanced
  | .result t e => t.Balanced ∧ e.Balanced
  | .wrapper _ attrs t => (attrs.map (·.1)).Nodup ∧ t.Balanced
  | .struct _ fs => fs ≠ [] ∧ AllBalanced fs
  | .unitStruct => True
  | .enum _ vs => vs.all Variant.isEmpty = true ∨ (AllVariants vs ∧ (variantShapes vs).length = vs.length)

def AllBalanced : List KTy → Prop
  | [] => True
  | t :: ts => t.Balanced ∧ AllBalanced ts

def AllVariants : List Variant → Prop
  | [] => True
  | .unit :: vs => AllVariants vs
  | .fields fs :: vs => AllBalanced fs ∧ AllVariants vs
end

end Bonsai.Describe
