import Verif.Names.Resources

/-!
# C18: key-value namespaces and pub/sub databases

`crates/bonsaidb-local/src/database/keyvalue.rs:126-147`,
`crates/bonsaidb-core/src/pubsub.rs:258-266`, `crates/bonsaidb-local/src/database/pubsub.rs`,
`crates/bonsaidb-local/src/storage.rs:515-528`.
-/
set_option linter.unusedSimpArgs false

namespace Bonsai.Names
open Bonsai

/-- `full_key`, keyvalue.rs:126-135 (the UTF-8 bytes of the resulting string). -/
def fullKey (ns : Option String) (key : String) : Bytes :=
  (match ns with | some n => strBytes n | none => []) ++ 0 :: strBytes key

/-- `str::split_once('\0')` on the bytes (std). -/
def splitNull : Bytes → Option (Bytes × Bytes)
  | [] => none
  | b :: r => if b = 0 then some ([], r) else (splitNull r).map fun (x, y) => (b :: x, y)

/-- `split_key`, keyvalue.rs:137-148. The pieces of a valid string split at a NUL are valid strings,
so they are given by their bytes. -/
def splitKey (full : Bytes) : Option (Option Bytes × Bytes) :=
  (splitNull full).map fun (n, k) => (if n.isEmpty then none else some n, k)

/-- `database_topic`, core pubsub.rs:258-266. -/
def databaseTopic (db : String) (topic : Bytes) : Bytes := strBytes db ++ 0 :: topic

/-- `validate_name`, storage.rs:515-528. -/
def validChar (index : Nat) (c : Char) : Bool :=
  c.isAlphanum || (index == 0 && c == '_') || (index > 0 && (c == '.' || c == '-'))
def validateName (name : String) : Bool := name.toList.zipIdx.all fun (c, i) => validChar i c

/-! ## Lemmas -/

theorem utf8_zero_mem {cs : List Char} (h : (0 : UInt8) ∈ utf8 cs) : '\x00' ∈ cs := by
  unfold utf8 at h
  obtain ⟨c, hc, hb⟩ := List.mem_flatMap.mp h
  have : c = '\x00' := by
    rw [String.utf8EncodeChar.eq_def] at hb
    apply char_ext_nat
    have hv : c.val.toNat = c.toNat := rfl
    simp only at hb
    generalize c.val.toNat = n at hb hv
    split at hb
    · simp only [List.mem_cons, List.not_mem_nil, or_false] at hb
      have h2 := congrArg UInt8.toNat hb
      simp at h2
      rw [← hv]
      show n = 0
      omega
    · split at hb
      · simp only [List.mem_cons, List.not_mem_nil, or_false] at hb
        rcases hb with h | h <;> have h2 := congrArg UInt8.toNat h <;> simp at h2 <;> omega
      · split at hb
        · simp only [List.mem_cons, List.not_mem_nil, or_false] at hb
          rcases hb with h | h | h <;> have h2 := congrArg UInt8.toNat h <;> simp at h2 <;> omega
        · simp only [List.mem_cons, List.not_mem_nil, or_false] at hb
          rcases hb with h | h | h | h <;> have h2 := congrArg UInt8.toNat h <;> simp at h2 <;> omega
  rw [← this]; exact hc

/-- No NUL character in the text. -/
@[reducible] def NullFree (s : String) : Prop := '\x00' ∉ s.toList

theorem nullFree_bytes {s : String} (h : NullFree s) : (0 : UInt8) ∉ strBytes s := by
  rw [strBytes_eq]; exact fun hm => h (utf8_zero_mem hm)

theorem split_unique (p q r s : Bytes) (hp : (0 : UInt8) ∉ p) (hr : (0 : UInt8) ∉ r)
    (h : p ++ 0 :: q = r ++ 0 :: s) : p = r ∧ q = s := by
  induction p generalizing r with
  | nil =>
    cases r with
    | nil => simpa using h
    | cons x r => simp at h; simp [← h.1] at hr
  | cons x p ih =>
    cases r with
    | nil => simp at h; simp [h.1] at hp
    | cons y r =>
      simp only [List.cons_append, List.cons.injEq] at h
      simp only [List.mem_cons, not_or] at hp hr
      obtain ⟨h1, h2⟩ := ih r hp.2 hr.2 h.2
      exact ⟨by rw [h.1, h1], h2⟩

theorem splitNull_append (p q : Bytes) (hp : (0 : UInt8) ∉ p) :
    splitNull (p ++ 0 :: q) = some (p, q) := by
  induction p with
  | nil => simp [splitNull]
  | cons x p ih =>
    simp only [List.mem_cons, not_or] at hp
    rw [List.cons_append, splitNull, if_neg (fun e => hp.1 e.symm), ih hp.2]
    rfl

/-- A namespace a program can use safely: absent, or non-empty without NUL characters. -/
def PlainNamespace : Option String → Prop
  | none => True
  | some n => n ≠ "" ∧ NullFree n

theorem validName_nullFree {name : String} (h : validateName name = true) : NullFree name := by
  intro hm
  unfold validateName at h
  rw [List.all_eq_true] at h
  obtain ⟨i, hi⟩ := List.getElem?_of_mem hm
  have hmem : ('\x00', i) ∈ name.toList.zipIdx := by
    rw [List.mem_zipIdx_iff_getElem?]; simpa using hi
  have := h _ hmem
  have e : Char.isAlphanum '\x00' = false := by decide
  simp [validChar, e] at this

/-! ## C18: key-value -/

/-- **C18 (partial).** Distinct (namespace, key) pairs address distinct stored keys, when namespaces
are absent or non-empty and contain no NUL character.  The key may be any string. -/
theorem C18_kv_keys_distinct_partial (ns ms : Option String) (k l : String)
    (hn : PlainNamespace ns) (hm : PlainNamespace ms) (h : fullKey ns k = fullKey ms l) :
    ns = ms ∧ k = l := by
  cases ns with
  | none =>
    cases ms with
    | none =>
      obtain ⟨-, h2⟩ := split_unique [] _ [] _ (by simp) (by simp) h
      exact ⟨rfl, strBytes_inj h2⟩
    | some m =>
      obtain ⟨h1, -⟩ := split_unique [] _ _ _ (by simp) (nullFree_bytes hm.2) h
      have : m = "" := strBytes_inj (h1.symm.trans (by decide))
      exact absurd this hm.1
  | some n =>
    cases ms with
    | none =>
      obtain ⟨h1, -⟩ := split_unique _ _ [] _ (nullFree_bytes hn.2) (by simp) h
      have : n = "" := strBytes_inj (h1.trans (by decide))
      exact absurd this hn.1
    | some m =>
      obtain ⟨h1, h2⟩ := split_unique _ _ _ _ (nullFree_bytes hn.2) (nullFree_bytes hm.2) h
      rw [strBytes_inj h1, strBytes_inj h2]
      exact ⟨rfl, rfl⟩

/-- **C18.** The (namespace, key) pair is recovered from the stored key (used by listings, backups
and change notifications). -/
theorem C18_split_full_key_partial (ns : Option String) (k : String) (hn : PlainNamespace ns) :
    splitKey (fullKey ns k) = some (ns.map strBytes, strBytes k) := by
  unfold splitKey fullKey
  cases ns with
  | none => simp [splitNull]
  | some n =>
    simp only
    rw [splitNull_append _ _ (nullFree_bytes hn.2)]
    have : strBytes n ≠ [] := fun e => hn.1 (strBytes_inj (e.trans (by decide)))
    simp [this]

/-- **C18 violated (F18).** A namespace containing a NUL addresses another namespace's keys. -/
theorem C18_violated_null_namespace (k : String) :
    fullKey (some "a\x00b") k = fullKey (some "a") ("b\x00" ++ k) := by
  have e1 : strBytes "a\x00b" = [97, 0, 98] := by decide
  have e2 : strBytes ("b\x00" ++ k) = [98, 0] ++ strBytes k := by
    rw [strBytes_eq, strBytes_eq, String.toList_append]
    have : ("b\x00" : String).toList = ['b', '\x00'] := by decide
    rw [this]
    unfold utf8
    rw [List.flatMap_append]
    rfl
  have e3 : strBytes "a" = [97] := by decide
  simp [fullKey, e1, e2, e3]

/-- **C18 violated.** The namespace `Some("")` is the same as no namespace. -/
theorem C18_violated_empty_namespace (k : String) : fullKey (some "") k = fullKey none k := by
  have : strBytes "" = [] := by decide
  simp [fullKey, this]

/-! ## C18: pub/sub

The `circulate` relay (external crate) is modelled as the set of (subscriber, raw topic)
subscriptions; publishing to a raw topic delivers to the subscribers of that raw topic. -/

/-- The calls made on subscribers, bonsaidb-local database/pubsub.rs:83-101. -/
inductive SubOp where
  | subscribe (sub : Nat) (topic : Bytes)
  | unsubscribe (sub : Nat) (topic : Bytes)

/-- The relay after one call; a subscriber belongs to the database it was created from
(pubsub.rs:14-23, 89, 99). -/
def relayStep (dbOf : Nat → String) (relay : List (Nat × Bytes)) : SubOp → List (Nat × Bytes)
  | .subscribe s t => (s, databaseTopic (dbOf s) t) :: relay
  | .unsubscribe s t => relay.filter (· != (s, databaseTopic (dbOf s) t))

/-- The relay after a history of calls. -/
def relayAfter (dbOf : Nat → String) (ops : List SubOp) : List (Nat × Bytes) :=
  ops.foldl (relayStep dbOf) []

/-- `publish_bytes`, pubsub.rs:25-36: is a message published in `db` to `topic` delivered to
`sub`? -/
def delivered (dbOf : Nat → String) (ops : List SubOp) (db : String) (topic : Bytes) (sub : Nat) : Bool :=
  (relayAfter dbOf ops).contains (sub, databaseTopic db topic)

/-- Specification: `sub`'s last call about `topic` (none other) was a subscription. -/
def subscribed (ops : List SubOp) (sub : Nat) (topic : Bytes) : Bool :=
  ops.foldl (fun cur op => match op with
    | .subscribe s t => if s = sub ∧ t = topic then true else cur
    | .unsubscribe s t => if s = sub ∧ t = topic then false else cur) false

theorem databaseTopic_inj {db db' : String} {t t' : Bytes} (h : NullFree db) (h' : NullFree db')
    (he : databaseTopic db t = databaseTopic db' t') : db = db' ∧ t = t' := by
  obtain ⟨h1, h2⟩ := split_unique _ _ _ _ (nullFree_bytes h) (nullFree_bytes h') he
  exact ⟨strBytes_inj h1, h2⟩

theorem relay_agrees (dbOf : Nat → String) (sub : Nat) (topic : Bytes) (ops : List SubOp)
    (relay : List (Nat × Bytes)) (cur : Bool)
    (h : relay.contains (sub, databaseTopic (dbOf sub) topic) = cur)
    (hdb : ∀ s, NullFree (dbOf s)) :
    (ops.foldl (relayStep dbOf) relay).contains (sub, databaseTopic (dbOf sub) topic) =
      ops.foldl (fun cur op => match op with
        | .subscribe s t => if s = sub ∧ t = topic then true else cur
        | .unsubscribe s t => if s = sub ∧ t = topic then false else cur) cur := by
  induction ops generalizing relay cur with
  | nil => exact h
  | cons op ops ih =>
    simp only [List.foldl_cons]
    apply ih
    have inj : ∀ t, databaseTopic (dbOf sub) topic = databaseTopic (dbOf sub) t → topic = t :=
      fun t e => (databaseTopic_inj (hdb _) (hdb _) e).2
    cases op with
    | subscribe s t =>
      simp only [relayStep]
      by_cases he : s = sub ∧ t = topic
      · obtain ⟨rfl, rfl⟩ := he; simp
      · rw [if_neg he, ← h]
        have hne : ((sub, databaseTopic (dbOf sub) topic) == (s, databaseTopic (dbOf s) t)) = false := by
          rw [beq_eq_false_iff_ne]
          intro e
          simp only [Prod.mk.injEq] at e
          obtain ⟨e1, e2⟩ := e
          subst e1
          exact he ⟨rfl, (inj _ e2).symm⟩
        rw [List.contains_cons, hne, Bool.false_or]
    | unsubscribe s t =>
      simp only [relayStep]
      by_cases he : s = sub ∧ t = topic
      · obtain ⟨rfl, rfl⟩ := he
        simp
      · rw [if_neg he, ← h, Bool.eq_iff_iff]
        have hne : (sub, databaseTopic (dbOf sub) topic) ≠ (s, databaseTopic (dbOf s) t) := by
          intro e
          simp only [Prod.mk.injEq] at e
          obtain ⟨e1, e2⟩ := e
          subst e1
          exact he ⟨rfl, (inj _ e2).symm⟩
        simp only [List.contains_iff_mem, List.mem_filter, bne_iff_ne, ne_eq]
        exact ⟨fun h => h.1, fun h => ⟨h, hne⟩⟩

/-- **C18 (pub/sub).** With valid database names, after any history of subscriptions a message
published to (database, topic) reaches exactly the subscribers created from that database whose
last call for that topic was a subscription. -/
theorem C18_pubsub_isolated (dbOf : Nat → String) (hdb : ∀ s, validateName (dbOf s) = true)
    (ops : List SubOp) (db : String) (hv : validateName db = true) (topic : Bytes) (sub : Nat) :
    delivered dbOf ops db topic sub = true ↔ dbOf sub = db ∧ subscribed ops sub topic = true := by
  have hn : ∀ s, NullFree (dbOf s) := fun s => validName_nullFree (hdb s)
  have hdbn := validName_nullFree hv
  constructor
  · intro h
    unfold delivered at h
    have hmem : (sub, databaseTopic db topic) ∈ relayAfter dbOf ops := by simpa using h
    have hinv : ∀ (ops : List SubOp) (relay : List (Nat × Bytes)), (∀ p ∈ relay, ∃ t, p.2 = databaseTopic (dbOf p.1) t) →
        ∀ p ∈ ops.foldl (relayStep dbOf) relay, ∃ t, p.2 = databaseTopic (dbOf p.1) t := by
      intro ops
      induction ops with
      | nil => intro relay h; exact h
      | cons op ops ih =>
        intro relay h
        apply ih
        cases op with
        | subscribe s t =>
          intro p hp
          simp only [relayStep, List.mem_cons] at hp
          rcases hp with rfl | hp
          · exact ⟨t, rfl⟩
          · exact h p hp
        | unsubscribe s t =>
          intro p hp
          exact h p (List.mem_filter.mp hp).1
    obtain ⟨t, ht⟩ := hinv ops [] (by simp) _ hmem
    obtain ⟨h1, h2⟩ := databaseTopic_inj hdbn (hn sub) ht
    refine ⟨h1.symm, ?_⟩
    have := relay_agrees dbOf sub topic ops [] false (by simp) hn
    unfold subscribed
    rw [← this, ← h1]
    exact h
  · rintro ⟨rfl, h⟩
    have := relay_agrees dbOf sub topic ops [] false (by simp) hn
    unfold delivered relayAfter
    rw [this]
    exact h

/-! Non-vacuity -/
example : validateName "my-db.v2" = true ∧ validateName "a\x00b" = false ∧
    validateName "../x" = false := by decide
example : delivered (fun s => if s = 1 then "a" else "b") [.subscribe 1 [7], .subscribe 2 [7]]
    "a" [7] 2 = false := by decide
example : PlainNamespace (some "ns") := ⟨by decide, by decide⟩

end Bonsai.Names
