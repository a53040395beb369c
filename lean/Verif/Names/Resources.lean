import Verif.Names.Escape

/-!
# C16: permission resource names

`crates/bonsaidb-core/src/permissions/bonsai.rs:9-105`.  An `actionable::ResourceName` is a list of
identifiers; an `Identifier` compares by its bytes (`u64` identifiers are their 8 big-endian bytes,
see the repository test `document_id_identifier_tests`, document/id.rs:84-93).
-/
set_option linter.unusedSimpArgs false

namespace Bonsai.Names
open Bonsai

/-- An encryption key id, document.rs `KeyId` (`None` is unreachable in the resource name). -/
inductive VaultKey where
  | master
  | id (s : String)
  deriving DecidableEq

/-- Everything a permission statement can name. -/
inductive Resource where
  | server
  | database (db : String)
  | collection (db : String) (c : QName)
  | document (db : String) (c : QName) (id : Bytes)
  | view (db : String) (v : VName)
  | topic (db : String) (topic : Bytes)
  | keyValue (db : String)
  | key (db : String) (ns : Option String) (key : String)
  | vaultKey (k : VaultKey)
  | user (id : BitVec 64)
  | role (id : BitVec 64)
  | authToken (id : BitVec 64)
  deriving DecidableEq

/-- `u64::to_be_bytes` -/
def id8 (i : BitVec 64) : Bytes := toBE 8 i.toNat

/-- The resource-name constructors, permissions/bonsai.rs:9-105. -/
def resourceName : Resource → List Bytes
  | .server => [strBytes "bonsaidb"]                                             -- 11-13
  | .database db => [strBytes "bonsaidb", strBytes db]                           -- 17-19
  | .collection db c => [strBytes "bonsaidb", strBytes db, displayQ c]           -- 23-28
  | .document db c id =>                                                         -- 32-40
    [strBytes "bonsaidb", strBytes db, displayQ c, strBytes "document", id]
  | .view db v =>                                                                -- 44-49
    [strBytes "bonsaidb", strBytes db, displayQ v.collection, strBytes "view", strBytes v.name]
  | .topic db t => [strBytes "bonsaidb", strBytes db, strBytes "pubsub", t]      -- 53-55
  | .keyValue db => [strBytes "bonsaidb", strBytes db, strBytes "keyvalue"]      -- 59-61
  | .key db ns k =>                                                              -- 65-73
    [strBytes "bonsaidb", strBytes db, strBytes "keyvalue", strBytes (ns.getD ""), strBytes k]
  | .vaultKey k =>                                                               -- 77-86
    [strBytes "bonsaidb", strBytes "vault", strBytes "key",
      match k with | .master => strBytes "_master" | .id s => strBytes s]
  | .user id => [strBytes "bonsaidb", strBytes "user", id8 id]                   -- 90-92
  | .role id => [strBytes "bonsaidb", strBytes "role", id8 id]                   -- 96-98
  | .authToken id => [strBytes "bonsaidb", strBytes "authentication-token", id8 id]  -- 102-106

/-! ## Specification: which resources have an unambiguous name -/

/-- No `.` in the text. -/
@[reducible] def DotFree (s : String) : Prop := '.' ∉ s.toList

/-- A database name that is not one of the four words the server uses at the same level. -/
def NotReserved (db : String) : Prop :=
  db ≠ "vault" ∧ db ≠ "user" ∧ db ≠ "role" ∧ db ≠ "authentication-token"

/-- Resources built from a dot-free authority, a non-reserved database name, a key-value namespace
other than the empty string and a vault key id other than `_master`. -/
def Plain : Resource → Prop
  | .server => True
  | .database db => NotReserved db
  | .collection db c => NotReserved db ∧ DotFree c.authority
  | .document db c _ => NotReserved db ∧ DotFree c.authority
  | .view db v => NotReserved db ∧ DotFree v.collection.authority
  | .topic db _ => NotReserved db
  | .keyValue db => NotReserved db
  | .key db ns _ => NotReserved db ∧ ns ≠ some ""
  | .vaultKey k => k ≠ .id "_master"
  | .user _ => True
  | .role _ => True
  | .authToken _ => True

/-! ## Lemmas -/

theorem utf8_ascii_mem {cs : List Char} (h : (46 : UInt8) ∈ utf8 cs) : '.' ∈ cs := by
  unfold utf8 at h
  obtain ⟨c, hc, hb⟩ := List.mem_flatMap.mp h
  have : c = '.' := by
    rw [String.utf8EncodeChar.eq_def] at hb
    apply char_ext_nat
    have hv : c.val.toNat = c.toNat := rfl
    simp only at hb
    generalize c.val.toNat = n at hb hv
    have key : ∀ m : Nat, (46 : UInt8) = UInt8.ofNat m → m % 256 = 46 := by
      intro m hm
      have := congrArg UInt8.toNat hm
      simp at this
      omega
    split at hb
    · simp at hb
      have := key _ hb
      rw [← hv]
      show n = 46
      omega
    · split at hb
      · simp only [List.mem_cons, List.not_mem_nil, or_false] at hb
        rcases hb with h | h <;> have h2 := congrArg UInt8.toNat h <;> simp at h2 <;> omega
      · split at hb
        · simp only [List.mem_cons, List.not_mem_nil, or_false] at hb
          rcases hb with h | h | h <;> have h2 := congrArg UInt8.toNat h <;> simp at h2 <;> omega
        · simp only [List.mem_cons, List.not_mem_nil, or_false] at hb
          rcases hb with h | h | h | h <;> have h2 := congrArg UInt8.toNat h <;> simp at h2 <;> omega
  rw [← this]; exact hc

theorem dotFree_bytes {s : String} (h : DotFree s) : (46 : UInt8) ∉ strBytes s := by
  rw [strBytes_eq]; exact fun hm => h (utf8_ascii_mem hm)

theorem displayQ_inj {a b : QName} (ha : DotFree a.authority) (hb : DotFree b.authority)
    (h : displayQ a = displayQ b) : a = b := by
  have da := dotFree_bytes ha
  have db := dotFree_bytes hb
  obtain ⟨aa, an⟩ := a
  obtain ⟨ba, bn⟩ := b
  simp only [displayQ, displayName] at *
  have key : ∀ p q r s : Bytes, (46 : UInt8) ∉ p → (46 : UInt8) ∉ r →
      p ++ 46 :: q = r ++ 46 :: s → p = r ∧ q = s := by
    intro p
    induction p with
    | nil =>
      intro q r s _ hr h
      cases r with
      | nil => simpa using h
      | cons x r => simp at h; simp [← h.1] at hr
    | cons x p ih =>
      intro q r s hp hr h
      cases r with
      | nil => simp at h; simp [h.1] at hp
      | cons y r =>
        simp only [List.cons_append, List.cons.injEq] at h
        simp only [List.mem_cons, not_or] at hp hr
        obtain ⟨h1, h2⟩ := ih q r s hp.2 hr.2 h.2
        exact ⟨by rw [h.1, h1], h2⟩
  obtain ⟨h1, h2⟩ := key _ _ _ _ da db h
  rw [strBytes_inj h1, strBytes_inj h2]

theorem displayQ_dot (c : QName) : (46 : UInt8) ∈ displayQ c := by simp [displayQ]

theorem displayQ_ne {c : QName} {s : Bytes} (h : (46 : UInt8) ∉ s) : displayQ c ≠ s :=
  fun e => h (e ▸ displayQ_dot c)

theorem id8_inj {a b : BitVec 64} (h : id8 a = id8 b) : a = b := by
  unfold id8 at h
  have := congrArg fromBE h
  have e : (256 : Nat) ^ 8 = 2 ^ 64 := by decide
  rw [fromBE_toBE (by rw [e]; exact a.isLt), fromBE_toBE (by rw [e]; exact b.isLt)] at this
  exact BitVec.eq_of_toNat_eq this

/-! ## C16 -/

/-- **C16 (partial).** Plain resources with the same permission resource name are the same
resource.  The excluded resources are refuted below. -/
theorem C16_resource_names_injective_partial (r s : Resource) (hr : Plain r) (hs : Plain s)
    (h : resourceName r = resourceName s) : r = s := by
  have k1 : (46 : UInt8) ∉ strBytes "pubsub" := by decide
  have k2 : (46 : UInt8) ∉ strBytes "keyvalue" := by decide
  have e1 : strBytes "document" ≠ strBytes "view" := by decide
  have e2 : strBytes "pubsub" ≠ strBytes "keyvalue" := by decide
  have e3 : strBytes "user" ≠ strBytes "role" := by decide
  have e4 : strBytes "user" ≠ strBytes "authentication-token" := by decide
  have e5 : strBytes "role" ≠ strBytes "authentication-token" := by decide
  have nu : ∀ {db : String} {t : String}, db ≠ t → strBytes db ≠ strBytes t :=
    fun h e => h (strBytes_inj e)
  have q1 : ∀ c : QName, displayQ c ≠ strBytes "pubsub" := fun c => displayQ_ne k1
  have q2 : ∀ c : QName, displayQ c ≠ strBytes "keyvalue" := fun c => displayQ_ne k2
  have res : ∀ {db : String}, NotReserved db → strBytes db ≠ strBytes "vault" ∧
      strBytes db ≠ strBytes "user" ∧ strBytes db ≠ strBytes "role" ∧
      strBytes db ≠ strBytes "authentication-token" :=
    fun h => ⟨nu h.1, nu h.2.1, nu h.2.2.1, nu h.2.2.2⟩
  have nse : ∀ ns ms : Option String, ns ≠ some "" → ms ≠ some "" →
      strBytes (ns.getD "") = strBytes (ms.getD "") → ns = ms := by
    intro ns ms h1 h2 h3
    have h4 := strBytes_inj h3
    cases ns with
    | none =>
      cases ms with
      | none => rfl
      | some m => simp at h4; exact absurd (by rw [← h4]) h2
    | some n =>
      cases ms with
      | none => simp at h4; exact absurd (by rw [h4]) h1
      | some m => simp at h4; rw [h4]
  cases r <;> cases s <;> simp only [resourceName, List.cons.injEq, reduceCtorEq, and_true, true_and,
    and_false, false_and] at h
  case server.server => rfl
  case database.database => rw [strBytes_inj h]
  case collection.collection => rw [strBytes_inj h.1, displayQ_inj hr.2 hs.2 h.2]
  case collection.keyValue => exact absurd h.2 (q2 _)
  case collection.user => exact absurd h.1 (res hr.1).2.1
  case collection.role => exact absurd h.1 (res hr.1).2.2.1
  case collection.authToken => exact absurd h.1 (res hr.1).2.2.2
  case document.document => rw [strBytes_inj h.1, displayQ_inj hr.2 hs.2 h.2.1, h.2.2]
  case document.view => exact absurd h.2.2.1 e1
  case document.key => exact absurd h.2.1 (q2 _)
  case view.document => exact absurd h.2.2.1.symm e1
  case view.view db v db' v' =>
    obtain ⟨c, n⟩ := v
    obtain ⟨c', n'⟩ := v'
    simp only at h
    have hc : c = c' := displayQ_inj hr.2 hs.2 h.2.1
    rw [strBytes_inj h.1, hc, strBytes_inj h.2.2]
  case view.key => exact absurd h.2.1 (q2 _)
  case topic.topic => rw [strBytes_inj h.1, h.2]
  case topic.vaultKey => exact absurd h.1 (res hr).1
  case keyValue.collection => exact absurd h.2.symm (q2 _)
  case keyValue.keyValue => rw [strBytes_inj h]
  case keyValue.user => exact absurd h.1 (res hr).2.1
  case keyValue.role => exact absurd h.1 (res hr).2.2.1
  case keyValue.authToken => exact absurd h.1 (res hr).2.2.2
  case key.document => exact absurd h.2.1.symm (q2 _)
  case key.view => exact absurd h.2.1.symm (q2 _)
  case key.key => rw [strBytes_inj h.1, nse _ _ hr.2 hs.2 h.2.1, strBytes_inj h.2.2]
  case vaultKey.topic => exact absurd h.1.symm (res hs).1
  case vaultKey.vaultKey a b =>
    cases a <;> cases b
    · rfl
    · exact absurd (by rw [strBytes_inj h]) hs
    · exact absurd (by rw [← strBytes_inj h]) hr
    · rw [strBytes_inj h]
  case user.collection => exact absurd h.1.symm (res hs.1).2.1
  case user.keyValue => exact absurd h.1.symm (res hs).2.1
  case user.user => rw [id8_inj h]
  case user.role => exact absurd h.1 e3
  case user.authToken => exact absurd h.1 e4
  case role.collection => exact absurd h.1.symm (res hs.1).2.2.1
  case role.keyValue => exact absurd h.1.symm (res hs).2.2.1
  case role.user => exact absurd h.1.symm e3
  case role.role => rw [id8_inj h]
  case role.authToken => exact absurd h.1 e5
  case authToken.collection => exact absurd h.1.symm (res hs.1).2.2.2
  case authToken.keyValue => exact absurd h.1.symm (res hs).2.2.2
  case authToken.user => exact absurd h.1.symm e4
  case authToken.role => exact absurd h.1.symm e5
  case authToken.authToken => rw [id8_inj h]

/-- **C16 violated (F26).** `("a","b.c")` and `("a.b","c")` are different collections with the same
resource name, because the name uses the unescaped display form. -/
theorem C16_violated_dotted_authority (db : String) :
    resourceName (.collection db ⟨"a", "b.c"⟩) = resourceName (.collection db ⟨"a.b", "c"⟩) ∧
    Resource.collection db ⟨"a", "b.c"⟩ ≠ .collection db ⟨"a.b", "c"⟩ := by
  have : displayQ ⟨"a", "b.c"⟩ = displayQ ⟨"a.b", "c"⟩ := by decide
  simp [resourceName, this]

/-- **C16 violated (F41).** A database may be called `user`; its key-value store then has the
resource name of the user with the id whose bytes spell `keyvalue`. -/
theorem C16_violated_reserved_database :
    ∃ id : BitVec 64, resourceName (.keyValue "user") = resourceName (.user id) :=
  ⟨0x6b657976616c7565#64, by decide⟩

/-- **C16 violated.** A namespace that is the empty string is the same resource as no namespace. -/
theorem C16_violated_empty_namespace (db k : String) :
    resourceName (.key db none k) = resourceName (.key db (some "") k) ∧
    Resource.key db none k ≠ .key db (some "") k := by
  simp [resourceName]

/-- **C16 violated.** A custom key id `_master` is the master key's resource. -/
theorem C16_violated_master_key :
    resourceName (.vaultKey .master) = resourceName (.vaultKey (.id "_master")) ∧
    Resource.vaultKey .master ≠ .vaultKey (.id "_master") := by
  simp [resourceName]

/-- Non-vacuity: plain resources of every level exist, and the theorem separates close ones. -/
example : Plain (.document "db" ⟨"auth", "a.b"⟩ [0, 1]) ∧ Plain (.view "db" ⟨⟨"auth", "a.b"⟩, "v"⟩) ∧
    Plain (.key "db" (some "ns") "k") ∧ Plain (.vaultKey .master) := by
  refine ⟨⟨⟨by decide, by decide, by decide, by decide⟩, by decide⟩,
    ⟨⟨by decide, by decide, by decide, by decide⟩, by decide⟩,
    ⟨⟨by decide, by decide, by decide, by decide⟩, by decide⟩, by simp [Plain]⟩

end Bonsai.Names
