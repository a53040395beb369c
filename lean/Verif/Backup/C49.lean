import Verif.Backup.Model

/-!
# C49: backup then restore reproduces the data
-/
set_option linter.unusedSimpArgs false
set_option linter.unusedSectionVars false

namespace Bonsai.Backup
open Bonsai Bonsai.Names

variable {F : Type} [KV.FloatOps F]

/-! ## Specification -/

/-- A namespace that the names in a backup can express: `._key._` does not occur in it, nor does it end
with `._key`. -/
def PlainSpace (ns : Bytes) : Prop := ¬ marker <:+: ns ++ marker.dropLast

/-- Data that survives a backup. -/
structure Portable (d : Database F) : Prop where
  /-- documents are stored under their own id (C20) -/
  own : ∀ c id doc, Store.getDoc d.docs c id = some doc → doc.header.id = id
  /-- documents are in the schema's collections (C20) -/
  known : ∀ c id doc, Store.getDoc d.docs c id = some doc → c ∈ d.schema.collections
  /-- the id can be read back from its text (C14) -/
  ids : ∀ c id doc, Store.getDoc d.docs c id = some doc → DocId.Legal id ∧ ¬ DocId.Ambiguous id
  /-- keys have a namespace, possibly empty, that the backup's names can express (C18) -/
  keys : ∀ k e, d.kv.get k = some e → ∃ ns key, k = ns ++ 0 :: key ∧ (0 : UInt8) ∉ ns ∧ PlainSpace ns
  /-- no stored value is NaN (C39) -/
  clean : ∀ k e, d.kv.get k = some e → e.value.validate = .ok e.value
  /-- a database with key-value entries has collections -/
  loop : ∀ k e, d.kv.get k = some e → d.schema.collections ≠ []

/-- The database has nothing to store. -/
def Empty (d : Database F) : Prop :=
  (∀ c id, Store.getDoc d.docs c id = none) ∧ ∀ k, d.kv.get k = none

/-- The documents (ids and contents) of all collections are the same, except that the records of the
databases are not compared. -/
def SameDocuments (d d' : Database F) : Prop :=
  ∀ c, c ≠ databaseCollection → ∀ id,
    (Store.getDoc d'.docs c id).map (fun x => (x.header.id, x.contents)) =
      (Store.getDoc d.docs c id).map (fun x => (x.header.id, x.contents))

/-- The key-value entries with their expirations are the same, as far as they have not expired at `T`. -/
def SameEntries (T : Nat) (d d' : Database F) : Prop :=
  KV.Spec.expire T d'.kv.look = KV.Spec.expire T d.kv.look

/-- A database without documents (other than the records of databases) and without entries. -/
structure Blank (d : Database F) : Prop where
  docs : ∀ c, c ≠ databaseCollection → ∀ id, Store.getDoc d.docs c id = none
  kv : ∀ k, d.kv.get k = none
  inv : KV.Inv d.kv

/-! ## Locations -/

theorem load_nil (a : Addr) : Loc.load [] a = none := rfl

theorem load_store (l : Loc) (a b : Addr) (o : Bytes) :
    (l.store a o).load b = if a = b then some o else l.load b := by
  unfold Loc.store Loc.load
  by_cases h : a = b
  · subst h; simp
  · rw [if_neg h, List.find?_cons_of_neg (by simpa using h)]
    congr 1
    induction l with
    | nil => rfl
    | cons p l ih =>
      by_cases hp : p.1 = a
      · have : ¬ p.1 = b := fun e => h (hp.symm.trans e)
        rw [List.filter_cons_of_neg (by simp [hp]), ih, List.find?_cons_of_neg (by simpa using this)]
      · rw [List.filter_cons_of_pos (by simp [hp])]
        by_cases hb : p.1 = b
        · rw [List.find?_cons_of_pos (by simpa using hb), List.find?_cons_of_pos (by simpa using hb)]
        · rw [List.find?_cons_of_neg (by simpa using hb), List.find?_cons_of_neg (by simpa using hb), ih]

theorem load_stores_other (os : List (Addr × Bytes)) (l : Loc) (a : Addr) (h : ∀ o, (a, o) ∉ os) :
    (l.stores os).load a = l.load a := by
  unfold Loc.stores
  induction os generalizing l with
  | nil => rfl
  | cons p os ih =>
    rw [List.foldl_cons, ih _ (fun o ho => h o (List.mem_cons_of_mem _ ho)), load_store, if_neg]
    rintro rfl
    exact h p.2 (List.mem_cons_self ..)

/-- Objects stored under the same name are the same. -/
def Consistent (os : List (Addr × Bytes)) : Prop := ∀ p ∈ os, ∀ q ∈ os, p.1 = q.1 → p.2 = q.2

theorem load_stores_mem (os : List (Addr × Bytes)) (l : Loc) (hc : Consistent os) (a : Addr) (o : Bytes)
    (h : (a, o) ∈ os) : (l.stores os).load a = some o := by
  induction os generalizing l with
  | nil => cases h
  | cons p os ih =>
    have hc' : Consistent os := fun x hx y hy => hc x (List.mem_cons_of_mem _ hx) y (List.mem_cons_of_mem _ hy)
    show ((l.store p.1 p.2).stores os).load a = some o
    by_cases hm : ∃ o', (a, o') ∈ os
    · obtain ⟨o', ho'⟩ := hm
      have : o' = o := hc (a, o') (List.mem_cons_of_mem _ ho') (a, o) h rfl
      subst this
      exact ih _ hc' ho'
    · rw [load_stores_other _ _ _ (fun o' ho' => hm ⟨o', ho'⟩), load_store]
      rcases List.mem_cons.mp h with rfl | h
      · simp
      · exact absurd ⟨o, h⟩ hm

theorem load_stores_iff {os : List (Addr × Bytes)} (hc : Consistent os) (a : Addr) (o : Bytes) :
    (Loc.stores [] os).load a = some o ↔ (a, o) ∈ os := by
  constructor
  · intro h
    by_cases hm : ∃ o', (a, o') ∈ os
    · obtain ⟨o', ho'⟩ := hm
      rw [load_stores_mem _ _ hc a o' ho'] at h
      cases h
      exact ho'
    · rw [load_stores_other _ _ _ (fun o' ho' => hm ⟨o', ho'⟩)] at h
      cases h
  · exact load_stores_mem _ _ hc a o

/-! ## Names -/

theorem splitMarker_plain {ns : Bytes} (h : PlainSpace ns) (key : Bytes) :
    splitMarker (ns ++ marker ++ key) = some (ns, key) := by
  induction ns with
  | nil => simp [splitMarker, marker]
  | cons b ns ih =>
    have h' : PlainSpace ns := fun hi => h (hi.trans (List.infix_cons (List.infix_rfl)))
    rw [List.cons_append, List.cons_append, splitMarker, if_neg, ih h']
    · rfl
    · intro hp
      rw [List.isPrefixOf_iff_prefix] at hp
      apply h
      have e : b :: (ns ++ marker ++ key) = ((b :: ns) ++ marker.dropLast) ++ (95 :: key) := by
        simp [marker]
      rw [e] at hp
      exact (List.prefix_of_prefix_length_le hp (List.prefix_append _ _) (by simp [marker])).isInfix

theorem splitMarker_some {s x y : Bytes} (h : splitMarker s = some (x, y)) :
    s = x ++ marker ++ y ∧ PlainSpace x := by
  induction s generalizing x with
  | nil => cases h
  | cons b r ih =>
    rw [splitMarker] at h
    split at h
    · rename_i hp
      cases h
      rw [List.isPrefixOf_iff_prefix] at hp
      obtain ⟨t, ht⟩ := hp
      refine ⟨?_, ?_⟩
      · rw [← ht]; simp [marker]
      · intro hi
        have := hi.length_le
        simp [marker] at this
    · rename_i hp
      rw [Option.map_eq_some_iff] at h
      obtain ⟨p, h1, h2⟩ := h
      simp only [Prod.mk.injEq] at h2
      obtain ⟨rfl, rfl⟩ := h2
      obtain ⟨e, hpl⟩ := ih h1
      refine ⟨by rw [e]; simp, ?_⟩
      intro hi
      rw [List.cons_append, List.infix_cons_iff] at hi
      rcases hi with hi | hi
      · apply hp
        rw [List.isPrefixOf_iff_prefix, e]
        refine hi.trans ⟨95 :: p.2, ?_⟩
        simp [marker]
      · exact hpl hi

/-- Exactly the plain namespaces are read back. -/
theorem splitMarker_iff (ns key : Bytes) : splitMarker (ns ++ marker ++ key) = some (ns, key) ↔ PlainSpace ns :=
  ⟨fun h => (splitMarker_some h).2, fun h => splitMarker_plain h key⟩

theorem container_ne (c : QName) : encodeQ c ≠ kvContainer := by
  intro h
  have : (46 : UInt8) ∈ encodeQ c := by simp [encodeQ]
  rw [h] at this
  exact absurd this (by decide)

/-! ## What a backup contains -/

theorem mem_docObjects {name : String} {d : Database F} {c : QName} {p : Addr × Bytes} :
    p ∈ docObjects name d c ↔ ∃ id doc, Store.getDoc d.docs c id = some doc ∧
      p = (⟨d.schemaName, name, encodeQ c, DocId.display doc.header.id⟩, doc.contents) := by
  unfold docObjects Store.getDoc
  rw [List.mem_map]
  constructor
  · rintro ⟨⟨id, doc⟩, h, rfl⟩
    exact ⟨id, doc, OMap.mem_list_iff.mp h, rfl⟩
  · rintro ⟨id, doc, h, rfl⟩
    exact ⟨(id, doc), OMap.mem_list_iff.mpr h, rfl⟩

theorem mem_kvObjects {pot : Pot F} {name : String} {d : Database F} {p : Addr × Bytes} :
    p ∈ kvObjects pot name d ↔ ∃ k e ns key, d.kv.get k = some e ∧ splitNull k = some (ns, key) ∧
      p = (⟨d.schemaName, name, kvContainer, ns ++ marker ++ key⟩, pot.enc e) := by
  unfold kvObjects
  rw [List.mem_filterMap]
  constructor
  · rintro ⟨⟨k, e⟩, h, hp⟩
    rw [Option.map_eq_some_iff] at hp
    obtain ⟨⟨ns, key⟩, h1, rfl⟩ := hp
    rw [OMap.mem_list_iff, KV.entries_get] at h
    exact ⟨k, e, ns, key, h, h1, rfl⟩
  · rintro ⟨k, e, ns, key, h, h1, rfl⟩
    refine ⟨(k, e), ?_, ?_⟩
    · rw [OMap.mem_list_iff, KV.entries_get]; exact h
    · simp [h1]

theorem mem_objects {pot : Pot F} {name : String} {d : Database F} {p : Addr × Bytes} :
    p ∈ objects pot name d ↔ (∃ c ∈ d.schema.collections, p ∈ docObjects name d c) ∨
      (d.schema.collections ≠ [] ∧ p ∈ kvObjects pot name d) := by
  unfold objects
  rw [List.mem_flatMap]
  constructor
  · rintro ⟨c, hc, hp⟩
    rcases List.mem_append.mp hp with hp | hp
    · exact .inl ⟨c, hc, hp⟩
    · exact .inr ⟨(fun e => by rw [e] at hc; cases hc), hp⟩
  · rintro (⟨c, hc, hp⟩ | ⟨hne, hp⟩)
    · exact ⟨c, hc, List.mem_append_left _ hp⟩
    · obtain ⟨c, hc⟩ := List.exists_mem_of_ne_nil _ hne
      exact ⟨c, hc, List.mem_append_right _ hp⟩

/-- All objects of a backup. -/
def allObjects (pot : Pot F) (σ : Storage F) : List (Addr × Bytes) := σ.flatMap fun p => objects pot p.1 p.2

theorem backup_eq (pot : Pot F) (σ : Storage F) (l : Loc) : backup pot σ l = l.stores (allObjects pot σ) := by
  unfold backup allObjects
  induction σ generalizing l with
  | nil => rfl
  | cons p σ ih =>
    rw [List.foldl_cons, ih, List.flatMap_cons]
    simp [Loc.stores, List.foldl_append]

theorem objects_database {pot : Pot F} {name : String} {d : Database F} {p : Addr × Bytes}
    (h : p ∈ objects pot name d) : p.1.database = name ∧ p.1.schema = d.schemaName := by
  rcases mem_objects.mp h with ⟨c, -, h⟩ | ⟨-, h⟩
  · obtain ⟨id, doc, -, rfl⟩ := mem_docObjects.mp h
    exact ⟨rfl, rfl⟩
  · obtain ⟨k, e, ns, key, -, -, rfl⟩ := mem_kvObjects.mp h
    exact ⟨rfl, rfl⟩

theorem encodeQ_inj {a b : QName} (h : encodeQ a = encodeQ b) : a = b := by
  have h1 := C15_qualified_round_trip a
  rw [h, C15_qualified_round_trip b] at h1
  exact (Option.some.inj h1).symm

theorem splitNull_spec {k ns key : Bytes} (h : splitNull k = some (ns, key)) : k = ns ++ 0 :: key ∧ (0 : UInt8) ∉ ns := by
  induction k generalizing ns with
  | nil => cases h
  | cons b r ih =>
    rw [splitNull] at h
    split at h
    · rename_i hb
      cases h
      exact ⟨by simp [hb], by simp⟩
    · rename_i hb
      rw [Option.map_eq_some_iff] at h
      obtain ⟨⟨x, y⟩, h1, h2⟩ := h
      simp only [Prod.mk.injEq] at h2
      obtain ⟨rfl, rfl⟩ := h2
      obtain ⟨e, hn⟩ := ih h1
      refine ⟨by rw [e]; simp, ?_⟩
      simp only [List.mem_cons, not_or]
      exact ⟨fun e => hb e.symm, hn⟩

theorem Portable.split {d : Database F} (h : Portable d) {k : Bytes} {e : KV.Entry F} {ns key : Bytes}
    (hk : d.kv.get k = some e) (hs : splitNull k = some (ns, key)) :
    k = ns ++ 0 :: key ∧ PlainSpace ns := by
  obtain ⟨ns', key', rfl, h0, hp⟩ := h.keys k e hk
  rw [splitNull_append _ _ h0] at hs
  cases hs
  exact ⟨rfl, hp⟩

theorem consistent_objects {pot : Pot F} {name : String} {d : Database F} (h : Portable d) :
    Consistent (objects pot name d) := by
  intro p hp q hq e
  rcases mem_objects.mp hp with ⟨c, -, hp⟩ | ⟨-, hp⟩ <;> rcases mem_objects.mp hq with ⟨c', -, hq⟩ | ⟨-, hq⟩
  · obtain ⟨id, doc, h1, rfl⟩ := mem_docObjects.mp hp
    obtain ⟨id', doc', h1', rfl⟩ := mem_docObjects.mp hq
    simp only [Addr.mk.injEq, true_and] at e
    have hc := encodeQ_inj e.1
    subst hc
    rw [h.own _ _ _ h1, h.own _ _ _ h1'] at e
    have := DocId.C14_text_injective_partial id id' (h.ids _ _ _ h1).1 (h.ids _ _ _ h1').1 (h.ids _ _ _ h1).2
      (h.ids _ _ _ h1').2 e.2
    subst this
    rw [h1] at h1'
    cases h1'
    rfl
  · obtain ⟨id, doc, h1, rfl⟩ := mem_docObjects.mp hp
    obtain ⟨k, en, ns, key, h1', h2, rfl⟩ := mem_kvObjects.mp hq
    simp only [Addr.mk.injEq, true_and] at e
    exact absurd e.1 (container_ne c)
  · obtain ⟨k, en, ns, key, h1', h2, rfl⟩ := mem_kvObjects.mp hp
    obtain ⟨id, doc, h1, rfl⟩ := mem_docObjects.mp hq
    simp only [Addr.mk.injEq, true_and] at e
    exact absurd e.1.symm (container_ne c')
  · obtain ⟨k, en, ns, key, h1, h2, rfl⟩ := mem_kvObjects.mp hp
    obtain ⟨k', en', ns', key', h1', h2', rfl⟩ := mem_kvObjects.mp hq
    simp only [Addr.mk.injEq, true_and] at e
    obtain ⟨e1, p1⟩ := h.split h1 h2
    obtain ⟨e2, p2⟩ := h.split h1' h2'
    have a := splitMarker_plain p1 key
    rw [e, splitMarker_plain p2 key'] at a
    cases a
    rw [e1] at h1
    rw [e2] at h1'
    rw [h1] at h1'
    cases h1'
    rfl

/-- Every database has its own name. -/
def Named (σ : Storage F) : Prop := (σ.map (·.1)).Nodup

theorem Named.unique {σ : Storage F} (h : Named σ) {p q : String × Database F} (hp : p ∈ σ) (hq : q ∈ σ)
    (e : p.1 = q.1) : p = q := by
  unfold Named at h
  induction σ with
  | nil => cases hp
  | cons x σ ih =>
    simp only [List.map_cons, List.nodup_cons, List.mem_map, not_exists, not_and] at h
    rcases List.mem_cons.mp hp with rfl | hp <;> rcases List.mem_cons.mp hq with rfl | hq
    · rfl
    · exact absurd e.symm (h.1 q hq)
    · rename_i hp'
      exact absurd e (h.1 p hp')
    · exact ih h.2 hp hq

theorem consistent_all {pot : Pot F} {σ : Storage F} (hn : Named σ) (h : ∀ p ∈ σ, Portable p.2) :
    Consistent (allObjects pot σ) := by
  intro p hp q hq e
  unfold allObjects at hp hq
  rw [List.mem_flatMap] at hp hq
  obtain ⟨x, hx, hp⟩ := hp
  obtain ⟨y, hy, hq⟩ := hq
  have hxy : x.1 = y.1 := by
    rw [← (objects_database hp).1, ← (objects_database hq).1, e]
  have := hn.unique hx hy hxy
  subst this
  exact consistent_objects (h x hx) p hp q hq e

/-- What is stored for a database of the storage. -/
theorem load_backup {pot : Pot F} {σ : Storage F} (hn : Named σ) (h : ∀ p ∈ σ, Portable p.2) {name : String}
    {d : Database F} (hd : (name, d) ∈ σ) (sn : QName) (c n o : Bytes) :
    (backup pot σ []).load ⟨sn, name, c, n⟩ = some o ↔ ((⟨sn, name, c, n⟩ : Addr), o) ∈ objects pot name d := by
  rw [backup_eq, load_stores_iff (consistent_all hn h)]
  unfold allObjects
  rw [List.mem_flatMap]
  constructor
  · rintro ⟨x, hx, hp⟩
    have : x = (name, d) := hn.unique hx hd (objects_database hp).1.symm
    subst this
    exact hp
  · intro hp
    exact ⟨(name, d), hd, hp⟩

/-- The stored documents of a collection. -/
theorem load_doc {pot : Pot F} {σ : Storage F} (hn : Named σ) (h : ∀ p ∈ σ, Portable p.2) {name : String}
    {d : Database F} (hd : (name, d) ∈ σ) (c : QName) (n o : Bytes) :
    (backup pot σ []).load ⟨d.schemaName, name, encodeQ c, n⟩ = some o ↔
      ∃ id doc, Store.getDoc d.docs c id = some doc ∧ n = DocId.display id ∧ o = doc.contents := by
  have hp := h _ hd
  rw [load_backup hn h hd, mem_objects]
  constructor
  · rintro (⟨c', hc', hm⟩ | ⟨-, hm⟩)
    · obtain ⟨id, doc, h1, e⟩ := mem_docObjects.mp hm
      simp only [Prod.mk.injEq, Addr.mk.injEq, true_and] at e
      have := encodeQ_inj e.1.1
      subst this
      refine ⟨id, doc, h1, ?_, e.2⟩
      rw [e.1.2, hp.own _ _ _ h1]
    · obtain ⟨k, en, ns, key, -, -, e⟩ := mem_kvObjects.mp hm
      simp only [Prod.mk.injEq, Addr.mk.injEq, true_and] at e
      exact absurd e.1.1 (container_ne c)
  · rintro ⟨id, doc, h1, rfl, rfl⟩
    refine .inl ⟨c, hp.known _ _ _ h1, mem_docObjects.mpr ⟨id, doc, h1, ?_⟩⟩
    rw [hp.own _ _ _ h1]

/-- The stored key-value entries. -/
theorem load_kv {pot : Pot F} {σ : Storage F} (hn : Named σ) (h : ∀ p ∈ σ, Portable p.2) {name : String}
    {d : Database F} (hd : (name, d) ∈ σ) (n o : Bytes) :
    (backup pot σ []).load ⟨d.schemaName, name, kvContainer, n⟩ = some o ↔
      ∃ ns key e, d.kv.get (ns ++ 0 :: key) = some e ∧ (0 : UInt8) ∉ ns ∧ PlainSpace ns ∧
        n = ns ++ marker ++ key ∧ o = pot.enc e := by
  have hp := h _ hd
  rw [load_backup hn h hd, mem_objects]
  constructor
  · rintro (⟨c', hc', hm⟩ | ⟨-, hm⟩)
    · obtain ⟨id, doc, h1, e⟩ := mem_docObjects.mp hm
      simp only [Prod.mk.injEq, Addr.mk.injEq, true_and] at e
      exact absurd e.1.1.symm (container_ne c')
    · obtain ⟨k, en, ns, key, h1, h2, e⟩ := mem_kvObjects.mp hm
      simp only [Prod.mk.injEq, Addr.mk.injEq, true_and] at e
      obtain ⟨e1, h0⟩ := splitNull_spec h2
      obtain ⟨-, hpl⟩ := hp.split h1 h2
      subst e1
      exact ⟨ns, key, en, h1, h0, hpl, e.1, e.2⟩
  · rintro ⟨ns, key, e, h1, h0, hpl, rfl, rfl⟩
    exact .inr ⟨hp.loop _ _ h1, mem_kvObjects.mpr ⟨_, e, ns, key, h1, splitNull_append _ _ h0, rfl⟩⟩

/-! ## Restoring documents -/

theorem execInsert_ok {s : Store.Schema} {t t' : Store.Trees} {c : QName} {id x : Bytes} {r : Store.OpResult}
    (h : Store.execOp s t ⟨c, .insert (some id) x⟩ = .ok (t', r)) :
    (t.docs c).get id = none ∧ t'.docs = upd t.docs c ((t.docs c).set id (.new s.digest id x)) := by
  simp only [Store.execOp, Store.execInsert, Option.orElse] at h
  split at h
  · cases h
  · rename_i hg
    split at h
    · cases h
    · rename_i t1 hst
      cases h
      exact ⟨hg, (Store.storeDoc_ok hst).1⟩

/-- Inserting documents with given ids: those documents are there, everything else is unchanged. -/
theorem runOps_inserts {s : Store.Schema} (L : List (QName × Bytes × Bytes)) :
    ∀ {t t' : Store.Trees} {ch ch' : Store.Changes} {rs : List Store.OpResult},
      Store.runOps s t ch (L.map fun p => ⟨p.1, .insert (some p.2.1) p.2.2⟩) = .ok (t', ch', rs) →
      (∀ c id x, (c, id, x) ∈ L → (t'.docs c).get id = some (.new s.digest id x)) ∧
      (∀ c id, (∀ x, (c, id, x) ∉ L) → (t'.docs c).get id = (t.docs c).get id) ∧
      (∀ c id d, (t.docs c).get id = some d → (t'.docs c).get id = some d) := by
  induction L with
  | nil =>
    intro t t' ch ch' rs h
    cases h
    exact ⟨fun _ _ _ h => (by cases h), fun _ _ _ => rfl, fun _ _ _ h => h⟩
  | cons p L ih =>
    obtain ⟨c₀, id₀, x₀⟩ := p
    intro t t' ch ch' rs h
    rw [List.map_cons, Store.runOps] at h
    split at h
    · cases h
    · rename_i t1 r he
      split at h
      · cases h
      · rename_i ch1 hrec
        split at h
        · cases h
        · rename_i t2 ch2 rs2 hrest
          cases h
          obtain ⟨hnone, hdocs⟩ := execInsert_ok he
          obtain ⟨i1, i2, i3⟩ := ih hrest
          refine ⟨?_, ?_, ?_⟩
          · intro c id x hm
            rcases List.mem_cons.mp hm with e | hm
            · cases e
              apply i3
              rw [hdocs, Store.get_upd, if_pos rfl, OMap.get_set_self]
            · exact i1 c id x hm
          · intro c id hno
            rw [i2 c id (fun x hx => hno x (List.mem_cons_of_mem _ hx)), hdocs, Store.get_upd]
            split
            · rename_i hc
              subst hc
              rw [OMap.get_set_ne]
              rintro rfl
              exact hno x₀ (List.mem_cons_self ..)
            · rfl
          · intro c id d hg
            apply i3
            rw [hdocs, Store.get_upd]
            split
            · rename_i hc
              subst hc
              rw [OMap.get_set_ne]
              · exact hg
              · rintro rfl
                rw [hnone] at hg
                cases hg
            · exact hg

theorem apply_inserts {s : Store.Schema} {db db' : Store.Db} {tid : Nat} {rs : List Store.OpResult}
    (L : List (QName × Bytes × Bytes))
    (h : Store.applyToRoots s db tid (L.map fun p => ⟨p.1, .insert (some p.2.1) p.2.2⟩) = (.ok rs, db')) :
    (∀ c id x, (c, id, x) ∈ L → Store.getDoc db' c id = some (.new s.digest id x)) ∧
      (∀ c id, (∀ x, (c, id, x) ∉ L) → Store.getDoc db' c id = Store.getDoc db c id) := by
  unfold Store.applyToRoots at h
  split at h
  · cases h
  · rename_i t ch rs' hp
    cases h
    unfold Store.prepare at hp
    split at hp
    · split at hp
      · cases hp
      · rename_i t2 ch2 rs2 hr
        cases hp
        obtain ⟨a, b, -⟩ := runOps_inserts L hr
        exact ⟨a, b⟩
    · cases hp

/-- The documents that a restore inserts. -/
def restoreList (l : Loc) (name : String) (d : Database F) (listing : Bytes → List Bytes) :
    List (QName × Bytes × Bytes) :=
  (d.schema.collections.filter fun c => c ≠ databaseCollection).flatMap fun c =>
    (listing (encodeQ c)).filterMap fun n =>
      (DocId.parse n).bind fun id =>
        (l.load ⟨d.schemaName, name, encodeQ c, n⟩).map fun contents => (c, id, contents)

theorem restoreOps_eq (l : Loc) (name : String) (d : Database F) (listing : Bytes → List Bytes) :
    restoreOps l name d listing =
      (restoreList l name d listing).map fun p => ⟨p.1, .insert (some p.2.1) p.2.2⟩ := by
  unfold restoreOps restoreList
  rw [List.map_flatMap]
  congr 1
  funext c
  rw [List.map_filterMap]
  congr 1
  funext n
  cases DocId.parse n with
  | none => rfl
  | some id => simp [Option.map_map]; rfl

/-- The restoring database uses the source's schema. -/
structure SameSchema (d d' : Database F) : Prop where
  name : d'.schemaName = d.schemaName
  schema : d'.schema = d.schema

theorem mem_restoreList {pot : Pot F} {σ : Storage F} (hn : Named σ) (h : ∀ p ∈ σ, Portable p.2) {name : String}
    {d d₁ : Database F} (hd : (name, d) ∈ σ) (hs : SameSchema d d₁) {listing : Bytes → List Bytes}
    (hl : ∀ c, ListsStored (backup pot σ []) d.schemaName name c (listing c)) (c : QName) (id x : Bytes) :
    (c, id, x) ∈ restoreList (backup pot σ []) name d₁ listing ↔
      c ≠ databaseCollection ∧ ∃ doc, Store.getDoc d.docs c id = some doc ∧ x = doc.contents := by
  have hp := h _ hd
  unfold restoreList
  rw [List.mem_flatMap]
  constructor
  · rintro ⟨c', hc', hm⟩
    rw [List.mem_filterMap] at hm
    obtain ⟨n, -, hm⟩ := hm
    rw [Option.bind_eq_some_iff] at hm
    obtain ⟨id', hid, hm⟩ := hm
    rw [Option.map_eq_some_iff] at hm
    obtain ⟨o, ho, e⟩ := hm
    cases e
    rw [hs.name, load_doc hn h hd] at ho
    obtain ⟨id2, doc, h1, rfl, rfl⟩ := ho
    rw [DocId.C14_text_round_trip_partial id2 (hp.ids _ _ _ h1).1 (hp.ids _ _ _ h1).2] at hid
    cases hid
    exact ⟨by simpa using (List.mem_filter.mp hc').2, doc, h1, rfl⟩
  · rintro ⟨hc, doc, h1, rfl⟩
    refine ⟨c, List.mem_filter.mpr ⟨by rw [hs.schema]; exact hp.known _ _ _ h1, by simpa using hc⟩, ?_⟩
    have hload := (load_doc (pot := pot) hn h hd c (DocId.display id) doc.contents).mpr ⟨id, doc, h1, rfl, rfl⟩
    rw [List.mem_filterMap]
    refine ⟨DocId.display id, ((hl _).2 _).mpr (by rw [hload]; rfl), ?_⟩
    rw [DocId.C14_text_round_trip_partial id (hp.ids _ _ _ h1).1 (hp.ids _ _ _ h1).2]
    simp [hs.name, hload]

/-! ## Restoring entries -/

theorem expire_put {T now : Nat} (hT : now ≤ T) (m : KV.KvMap F) (k : Bytes) (x : Option (KV.Value F × Option Nat)) :
    KV.Spec.expire T (KV.Spec.put (KV.Spec.expire now m) k x) = KV.Spec.put (KV.Spec.expire T m) k
      (KV.Spec.expire T (fun _ => x) k) := by
  funext k'
  simp only [KV.Spec.expire, KV.Spec.put]
  by_cases hk : k' = k
  · simp [hk]
  · simp only [hk, if_false]
    cases hm : m k' with
    | none => rfl
    | some p =>
      obtain ⟨v, e⟩ := p
      cases e with
      | none => rfl
      | some t =>
        simp only
        by_cases h1 : t ≤ now
        · have h2 : t ≤ T := by omega
          simp [h1, h2]
        · simp [h1]

theorem restoreKv_ok {pot : Pot F} (hpot : LawfulPot pot) {l : Loc} {sn : QName} {name : String}
    {ck : Bytes → KV.Clock} {T : Nat} (src : KV.St F)
    (names : List Bytes) : ∀ (st : KV.St F), KV.Inv st →
    (∀ n ∈ names, (ck n).now ≤ T) →
    (∀ n ∈ names, ∃ ns key e, src.get (ns ++ 0 :: key) = some e ∧ PlainSpace ns ∧ (0 : UInt8) ∉ ns ∧
      e.value.validate = .ok e.value ∧ n = ns ++ marker ++ key ∧
        l.load ⟨sn, name, kvContainer, n⟩ = some (pot.enc e)) →
    (restoreKv pot l sn name ck names st).1 = true ∧
      KV.Inv (restoreKv pot l sn name ck names st).2 ∧
      ∀ k, (KV.Spec.expire T (restoreKv pot l sn name ck names st).2.look k = KV.Spec.expire T st.look k ∧
          ∀ ns key, PlainSpace ns → k = ns ++ 0 :: key → ns ++ marker ++ key ∉ names) ∨
        (KV.Spec.expire T (restoreKv pot l sn name ck names st).2.look k = KV.Spec.expire T src.look k ∧
          ∃ ns key, k = ns ++ 0 :: key ∧ ns ++ marker ++ key ∈ names) := by
  induction names with
  | nil =>
    intro st hi _ _
    exact ⟨rfl, hi, fun k => .inl ⟨rfl, fun _ _ _ _ h => (by cases h)⟩⟩
  | cons n names ih =>
    intro st hi hT hall
    obtain ⟨ns, key, e, hg, hpl, h0, hv, rfl, hload⟩ := hall n (List.mem_cons_self ..)
    have hperf := KV.perform_ok hi (ck (ns ++ marker ++ key)) (restoreCommand ns key e)
    have hspec : KV.Spec.perform st.look (ck (ns ++ marker ++ key)).now (restoreCommand ns key e) =
        (.ok (.status (if ((KV.Spec.expire (ck (ns ++ marker ++ key)).now st.look) (ns ++ 0 :: key)).isSome
            then .updated else .inserted)),
         KV.Spec.put (KV.Spec.expire (ck (ns ++ marker ++ key)).now st.look) (ns ++ 0 :: key)
           (some (e.value, e.expiration))) := by
      simp only [KV.Spec.perform, KV.Spec.exec, restoreCommand, KV.Spec.set, hv, KV.Spec.passes, if_true]
      simp
    rw [hspec] at hperf
    rw [restoreKv, splitMarker_plain hpl]
    simp only [hload, Option.bind_some, hpot e]
    cases hp : st.perform (ck (ns ++ marker ++ key)) (restoreCommand ns key e) with
    | mk a st1 =>
      rw [hp] at hperf
      obtain ⟨ha, hlook, hinv⟩ := hperf
      simp only at ha hlook hinv
      subst ha
      simp only
      obtain ⟨r1, r2, r3⟩ := ih st1 hinv (fun n hn => hT n (List.mem_cons_of_mem _ hn))
        (fun n hn => hall n (List.mem_cons_of_mem _ hn))
      refine ⟨r1, r2, ?_⟩
      intro k
      have hnow := hT _ (List.mem_cons_self ..)
      by_cases hk : k = ns ++ 0 :: key
      · right
        refine ⟨?_, ns, key, hk, List.mem_cons_self ..⟩
        rcases r3 k with ⟨h1, -⟩ | ⟨h1, -⟩
        · rw [h1, hlook, expire_put hnow]
          subst hk
          simp [KV.Spec.put, KV.Spec.expire, KV.look_some hg]
        · exact h1
      · rcases r3 k with ⟨h1, h2⟩ | ⟨h1, ns', key', h2, h3⟩
        · left
          refine ⟨?_, ?_⟩
          · rw [h1, hlook, expire_put hnow]
            simp [KV.Spec.put, hk]
          · intro ns' key' h0' hk' hm
            rcases List.mem_cons.mp hm with em | hm
            · have a := splitMarker_plain hpl key
              rw [← em, splitMarker_plain h0' key'] at a
              cases a
              exact hk hk'
            · exact h2 ns' key' h0' hk' hm
        · right
          exact ⟨h1, ns', key', h2, List.mem_cons_of_mem _ h3⟩

/-! ## One database -/

theorem restoreDatabase_ok {pot : Pot F} (hpot : LawfulPot pot) {σ : Storage F} (hn : Named σ)
    (h : ∀ p ∈ σ, Portable p.2) {name : String} {d d₁ : Database F} (hd : (name, d) ∈ σ) (hs : SameSchema d d₁)
    (hb : Blank d₁) {listing : Bytes → List Bytes}
    (hl : ∀ c, ListsStored (backup pot σ []) d.schemaName name c (listing c)) (tid : Nat) (ck : Bytes → KV.Clock)
    {rs : List Store.OpResult} {docs : Store.Db}
    (hacc : Store.applyToRoots d₁.schema d₁.docs tid (restoreOps (backup pot σ []) name d₁ listing) = (.ok rs, docs)) :
    ∃ d₂, restoreDatabase pot (backup pot σ []) name listing tid ck d₁ = (true, d₂) ∧ SameSchema d d₂ ∧
      SameDocuments d d₂ ∧ ∀ T, (∀ n ∈ listing kvContainer, (ck n).now ≤ T) → SameEntries T d d₂ := by
  have hp := h _ hd
  have hnames : ∀ n ∈ listing kvContainer, ∃ ns key e, d.kv.get (ns ++ 0 :: key) = some e ∧ PlainSpace ns ∧
      (0 : UInt8) ∉ ns ∧ e.value.validate = .ok e.value ∧ n = ns ++ marker ++ key ∧
        (backup pot σ []).load ⟨d₁.schemaName, name, kvContainer, n⟩ = some (pot.enc e) := by
    intro n hm
    have hsome := ((hl kvContainer).2 n).mp hm
    obtain ⟨o, ho⟩ := Option.isSome_iff_exists.mp hsome
    obtain ⟨ns, key, e, h1, h0, hpl, rfl, rfl⟩ := (load_kv hn h hd n o).mp ho
    exact ⟨ns, key, e, h1, hpl, h0, hp.clean _ _ h1, rfl, by rw [hs.name]; exact ho⟩
  have hmax : ∃ T, ∀ n ∈ listing kvContainer, (ck n).now ≤ T := by
    generalize listing kvContainer = names
    induction names with
    | nil => exact ⟨0, fun _ h => (by cases h)⟩
    | cons n ns ih =>
      obtain ⟨T, hT⟩ := ih
      refine ⟨max (ck n).now T, fun m hm => ?_⟩
      rcases List.mem_cons.mp hm with rfl | hm
      · omega
      · have := hT m hm; omega
  obtain ⟨T₀, hT₀⟩ := hmax
  have hkv₀ := restoreKv_ok (ck := ck) hpot d.kv (listing kvContainer) d₁.kv hb.inv hT₀ hnames
  refine ⟨{ d₁ with docs := docs, kv := (restoreKv pot (backup pot σ []) d₁.schemaName name ck
    (listing kvContainer) d₁.kv).2 }, ?_, ⟨hs.name, hs.schema⟩, ?_, ?_⟩
  · unfold restoreDatabase
    rw [hacc]
    simp only [hkv₀.1]
  · rw [restoreOps_eq] at hacc
    obtain ⟨a, b⟩ := apply_inserts _ hacc
    intro c hc id
    show (Store.getDoc docs c id).map _ = _
    cases hg : Store.getDoc d.docs c id with
    | some doc =>
      rw [a c id doc.contents ((mem_restoreList hn h hd hs hl c id _).mpr ⟨hc, doc, hg, rfl⟩)]
      simp [Store.Document.new, hp.own _ _ _ hg]
    | none =>
      rw [b c id, hb.docs c hc id]
      · intro x hx
        obtain ⟨-, doc, h1, -⟩ := (mem_restoreList hn h hd hs hl c id x).mp hx
        rw [hg] at h1
        cases h1
  · intro T hT
    obtain ⟨-, -, h3⟩ := restoreKv_ok (ck := ck) hpot d.kv (listing kvContainer) d₁.kv hb.inv hT hnames
    unfold SameEntries
    funext k
    rcases h3 k with ⟨e1, hno⟩ | ⟨e1, -⟩
    · rw [e1]
      have : d.kv.get k = none := by
        cases hg : d.kv.get k with
        | none => rfl
        | some e =>
          exfalso
          obtain ⟨ns, key, rfl, h0, hpl⟩ := hp.keys k e hg
          refine hno ns key hpl rfl (((hl kvContainer).2 _).mpr ?_)
          rw [(load_kv (pot := pot) hn h hd _ _).mpr ⟨ns, key, e, hg, h0, hpl, rfl, rfl⟩]
          rfl
      simp [KV.Spec.expire, KV.look_none this, KV.look_none (hb.kv k)]
    · exact e1

/-! ## When the transaction is accepted -/

theorem runOps_accepts {s : Store.Schema} (hne : ∀ c, Store.NoEager s c) (hlen : s.collections.length ≤ 65536)
    (L : List (QName × Bytes × Bytes)) :
    ∀ (t : Store.Trees) (ch : Store.Changes), (L.map fun p => (p.1, p.2.1)).Nodup →
      (∀ p ∈ L, p.1 ∈ s.collections ∧ (t.docs p.1).get p.2.1 = none) → ch.collections.Nodup →
      ch.collections ⊆ s.collections →
      ∃ r, Store.runOps s t ch (L.map fun p => ⟨p.1, .insert (some p.2.1) p.2.2⟩) = .ok r := by
  induction L with
  | nil => intro t ch _ _ _ _; exact ⟨_, rfl⟩
  | cons p L ih =>
    obtain ⟨c, id, x⟩ := p
    intro t ch hnd hall hcn hcs
    obtain ⟨hc, hg⟩ := hall _ (List.mem_cons_self ..)
    simp only at hc hg
    have he : Store.execOp s t ⟨c, .insert (some id) x⟩ =
        .ok ({ t with docs := upd t.docs c ((t.docs c).set id (.new s.digest id x)) },
          .updated c (Store.Document.new s.digest id x).header) := by
      simp only [Store.execOp, Store.execInsert, Option.orElse, hg, Store.storeDoc,
        Store.updateEagerViews_none (hne c)]
    have hrec : ∃ ch', Store.recordChange ch (Store.changedBy (.updated c (Store.Document.new s.digest id x).header)) =
        .ok ch' ∧ ch'.collections.Nodup ∧ ch'.collections ⊆ s.collections := by
      simp only [Store.changedBy, Store.recordChange]
      cases hi : ch.collections.idxOf? c with
      | some i => exact ⟨_, rfl, hcn, hcs⟩
      | none =>
        have hnotin : c ∉ ch.collections := by
          intro hm
          have := List.idxOf?_eq_none_iff.mp hi
          exact this hm
        have hnd' : (ch.collections ++ [c]).Nodup := by
          rw [List.nodup_append]
          refine ⟨hcn, by simp, ?_⟩
          intro a ha b hb
          simp only [List.mem_singleton] at hb
          subst hb
          rintro rfl
          exact hnotin ha
        have hsub' : ch.collections ++ [c] ⊆ s.collections := by
          intro a ha
          rcases List.mem_append.mp ha with ha | ha
          · exact hcs ha
          · simp only [List.mem_singleton] at ha
            subst ha
            exact hc
        have := Store.nodup_subset_length hnd' hsub'
        simp only [List.length_append, List.length_singleton] at this
        rw [if_pos (by omega)]
        exact ⟨_, rfl, hnd', hsub'⟩
    obtain ⟨ch', hr, hcn', hcs'⟩ := hrec
    simp only [List.map_cons, List.nodup_cons] at hnd
    obtain ⟨r, hrest⟩ := ih { t with docs := upd t.docs c ((t.docs c).set id (.new s.digest id x)) } ch' hnd.2
      (fun q hq => by
        obtain ⟨q1, q2⟩ := hall q (List.mem_cons_of_mem _ hq)
        refine ⟨q1, ?_⟩
        show ((upd t.docs c ((t.docs c).set id (.new s.digest id x))) q.1).get q.2.1 = none
        rw [Store.get_upd]
        split
        · rename_i hqc
          rw [OMap.get_set_ne, ← hqc]
          · exact q2
          · intro e
            apply hnd.1
            rw [List.mem_map]
            exact ⟨q, hq, by rw [hqc, ← e]⟩
        · exact q2) hcn' hcs'
    obtain ⟨t2, ch2, rs2⟩ := r
    refine ⟨(t2, ch2, (.updated c (Store.Document.new s.digest id x).header) :: rs2), ?_⟩
    rw [List.map_cons, Store.runOps, he]
    simp only [hr, hrest]

theorem nodup_filterMap_of {α β : Type} {f : α → Option β} {l : List α} (hl : l.Nodup)
    (hf : ∀ a ∈ l, ∀ b ∈ l, ∀ x, f a = some x → f b = some x → a = b) : (l.filterMap f).Nodup := by
  induction l with
  | nil => simp
  | cons a l ih =>
    simp only [List.nodup_cons] at hl
    have ih' := ih hl.2 (fun a ha b hb => hf a (List.mem_cons_of_mem _ ha) b (List.mem_cons_of_mem _ hb))
    rw [List.filterMap_cons]
    split
    · exact ih'
    · rename_i x hx
      rw [List.nodup_cons]
      refine ⟨?_, ih'⟩
      intro hm
      obtain ⟨b, hb, hbx⟩ := List.mem_filterMap.mp hm
      have := hf a (List.mem_cons_self ..) b (List.mem_cons_of_mem _ hb) x hx hbx
      subst this
      exact hl.1 hb

theorem nodup_flatMap_of {α β : Type} {f : α → List β} {l : List α} (hl : l.Nodup)
    (h1 : ∀ a ∈ l, (f a).Nodup) (h2 : ∀ a ∈ l, ∀ b ∈ l, ∀ x, x ∈ f a → x ∈ f b → a = b) :
    (l.flatMap f).Nodup := by
  induction l with
  | nil => simp
  | cons a l ih =>
    simp only [List.nodup_cons] at hl
    rw [List.flatMap_cons, List.nodup_append]
    refine ⟨h1 a (List.mem_cons_self ..), ih hl.2 (fun a ha => h1 a (List.mem_cons_of_mem _ ha))
      (fun a ha b hb => h2 a (List.mem_cons_of_mem _ ha) b (List.mem_cons_of_mem _ hb)), ?_⟩
    intro x hx y hy
    rintro rfl
    obtain ⟨b, hb, hxb⟩ := List.mem_flatMap.mp hy
    have := h2 a (List.mem_cons_self ..) b (List.mem_cons_of_mem _ hb) x hx hxb
    subst this
    exact hl.1 hb

/-- The restoring transaction is accepted when no view is eager (an eager view's `map` may fail). -/
theorem restore_accepted {pot : Pot F} {σ : Storage F} (hn : Named σ)
    (h : ∀ p ∈ σ, Portable p.2) {name : String} {d d₁ : Database F} (hd : (name, d) ∈ σ) (hs : SameSchema d d₁)
    (hb : Blank d₁) {listing : Bytes → List Bytes}
    (hl : ∀ c, ListsStored (backup pot σ []) d.schemaName name c (listing c)) (tid : Nat)
    (hne : ∀ c, Store.NoEager d.schema c) (hcoll : d.schema.collections.Nodup)
    (hlen : d.schema.collections.length ≤ 65536) :
    ∃ rs docs, Store.applyToRoots d₁.schema d₁.docs tid (restoreOps (backup pot σ []) name d₁ listing) = (.ok rs, docs) := by
  have hp := h _ hd
  have hmem := mem_restoreList (pot := pot) hn h hd hs hl
  have hnd : ((restoreList (backup pot σ []) name d₁ listing).map fun p => (p.1, p.2.1)).Nodup := by
    unfold restoreList
    rw [List.map_flatMap]
    apply nodup_flatMap_of
    · rw [hs.schema]; exact hcoll.filter _
    · intro c hc
      rw [List.map_filterMap]
      apply nodup_filterMap_of (hl _).1
      intro a ha b hb' x hx hy
      rw [Option.map_eq_some_iff] at hx hy
      obtain ⟨⟨c1, i1, o1⟩, hx, rfl⟩ := hx
      obtain ⟨⟨c2, i2, o2⟩, hy, e⟩ := hy
      rw [Option.bind_eq_some_iff] at hx hy
      obtain ⟨i1', p1, hx⟩ := hx
      obtain ⟨i2', p2, hy⟩ := hy
      rw [Option.map_eq_some_iff] at hx hy
      obtain ⟨o1', l1, e1⟩ := hx
      obtain ⟨o2', l2, e2⟩ := hy
      cases e1
      cases e2
      simp only [Prod.mk.injEq, true_and] at e
      subst e
      rw [hs.name, load_doc hn h hd] at l1 l2
      obtain ⟨j1, doc1, g1, rfl, rfl⟩ := l1
      obtain ⟨j2, doc2, g2, rfl, rfl⟩ := l2
      rw [DocId.C14_text_round_trip_partial j1 (hp.ids _ _ _ g1).1 (hp.ids _ _ _ g1).2] at p1
      rw [DocId.C14_text_round_trip_partial j2 (hp.ids _ _ _ g2).1 (hp.ids _ _ _ g2).2] at p2
      have e1 : j1 = i2 := Option.some.inj p1
      have e2 : j2 = i2 := Option.some.inj p2
      rw [e1, e2]
    · intro c hc c' hc' x hx hy
      rw [List.map_filterMap, List.mem_filterMap] at hx hy
      obtain ⟨n, -, hx⟩ := hx
      obtain ⟨m, -, hy⟩ := hy
      rw [Option.map_eq_some_iff] at hx hy
      obtain ⟨⟨c1, i1, o1⟩, hx, rfl⟩ := hx
      obtain ⟨⟨c2, i2, o2⟩, hy, e⟩ := hy
      rw [Option.bind_eq_some_iff] at hx hy
      obtain ⟨i1', p1, hx⟩ := hx
      obtain ⟨i2', p2, hy⟩ := hy
      rw [Option.map_eq_some_iff] at hx hy
      obtain ⟨o1', l1, e1⟩ := hx
      obtain ⟨o2', l2, e2⟩ := hy
      cases e1
      cases e2
      simp only [Prod.mk.injEq] at e
      exact e.1.symm
  obtain ⟨r, hr⟩ := runOps_accepts (s := d₁.schema) (by rw [hs.schema]; exact hne) (by rw [hs.schema]; exact hlen)
    (restoreList (backup pot σ []) name d₁ listing) d₁.docs.trees ⟨[], []⟩ hnd
    (fun p hm => by
      obtain ⟨c, id, x⟩ := p
      obtain ⟨hc, doc, hg, -⟩ := (hmem c id x).mp hm
      exact ⟨by rw [hs.schema]; exact hp.known _ _ _ hg, hb.docs c hc id⟩) (by simp) (by simp)
  obtain ⟨t, ch, rs⟩ := r
  have hknown : Store.collectionsKnown d₁.schema (restoreOps (backup pot σ []) name d₁ listing) = true := by
    rw [restoreOps_eq]
    unfold Store.collectionsKnown
    rw [List.all_map, List.all_eq_true]
    rintro ⟨c, id, x⟩ hm
    obtain ⟨hc, doc, hg, -⟩ := (hmem c id x).mp hm
    show d₁.schema.collections.contains c = true
    rw [hs.schema]
    simpa using hp.known _ _ _ hg
  unfold Store.applyToRoots Store.prepare
  rw [if_pos hknown, restoreOps_eq, hr]
  exact ⟨_, _, rfl⟩

/-! ## The whole storage -/

theorem get_put (τ : Storage F) (name m : String) (d : Database F) :
    (τ.put name d).get m = if name = m then some d else τ.get m := by
  unfold Storage.put Storage.get
  by_cases h : name = m
  · subst h; simp
  · rw [if_neg h, List.find?_cons_of_neg (by simpa using h)]
    congr 1
    induction τ with
    | nil => rfl
    | cons p l ih =>
      by_cases hp : p.1 = name
      · have : ¬ p.1 = m := fun e => h (hp.symm.trans e)
        rw [List.filter_cons_of_neg (by simp [hp]), ih, List.find?_cons_of_neg (by simpa using this)]
      · rw [List.filter_cons_of_pos (by simp [hp])]
        by_cases hb : p.1 = m
        · rw [List.find?_cons_of_pos (by simpa using hb), List.find?_cons_of_pos (by simpa using hb)]
        · rw [List.find?_cons_of_neg (by simpa using hb), List.find?_cons_of_neg (by simpa using hb), ih]

/-- The restoring storage: databases that are restored do not exist yet, or exist with the same schema and
without data (the admin database always exists). -/
def Ready (σ τ : Storage F) : Prop :=
  ∀ name d d₁, (name, d) ∈ σ → τ.get name = some d₁ → Blank d₁ ∧ SameSchema d d₁

/-- A restored database. -/
def Restored (env : Env) (name : String) (d d' : Database F) : Prop :=
  SameSchema d d' ∧ SameDocuments d d' ∧
    ∀ T, (∀ n ∈ env.listing d.schemaName name kvContainer, (env.clock name n).now ≤ T) → SameEntries T d d'

theorem blank_new (sn : QName) (s : Store.Schema) (now : Nat) : Blank (Database.new sn s now : Database F) :=
  ⟨fun _ _ _ => rfl, fun _ => rfl, KV.inv_new _ _ _⟩

/-- Each listed database, restored one after the other. -/
theorem restore_each {pot : Pot F} (hpot : LawfulPot pot) {σ : Storage F} (hn : Named σ)
    (h : ∀ p ∈ σ, Portable p.2) {registered : QName → Option Store.Schema}
    (hreg : ∀ p ∈ σ, registered p.2.schemaName = some p.2.schema) {env : Env}
    (hl : ∀ s d c, ListsStored (backup pot σ []) s d c (env.listing s d c)) (dbs : List (QName × String)) :
    ∀ (τ τ' : Storage F), dbs.Nodup → (∀ q ∈ dbs, ∃ d, (q.2, d) ∈ σ ∧ q.1 = d.schemaName) →
      (∀ q ∈ dbs, ∀ d d₁, (q.2, d) ∈ σ → τ.get q.2 = some d₁ → Blank d₁ ∧ SameSchema d d₁) →
      restore pot registered env (backup pot σ []) dbs τ = (true, τ') →
      (∀ q ∈ dbs, ∀ d, (q.2, d) ∈ σ → ∃ d', τ'.get q.2 = some d' ∧ Restored env q.2 d d') ∧
      ∀ name, (∀ sn, (sn, name) ∉ dbs) → τ'.get name = τ.get name := by
  induction dbs with
  | nil =>
    intro τ τ' _ _ _ hr
    cases hr
    exact ⟨fun _ h => (by cases h), fun _ _ => rfl⟩
  | cons q dbs ih =>
    obtain ⟨sn, name⟩ := q
    intro τ τ' hnd hex hready hr
    obtain ⟨d, hd, hsn⟩ := hex _ (List.mem_cons_self ..)
    simp only at hd hsn
    subst hsn
    rw [restore] at hr
    split at hr
    · rw [hreg _ hd] at hr
      simp only at hr
      generalize hd₁ : (τ.get name).getD (.new d.schemaName d.schema (env.created name)) = d₁ at hr
      have hb : Blank d₁ ∧ SameSchema d d₁ := by
        cases hg : τ.get name with
        | none => rw [hg] at hd₁; subst hd₁; exact ⟨blank_new _ _ _, ⟨rfl, rfl⟩⟩
        | some d₂ =>
          rw [hg] at hd₁
          simp only [Option.getD_some] at hd₁
          subst hd₁
          exact hready _ (List.mem_cons_self ..) d d₂ hd hg
      obtain ⟨hb, hs⟩ := hb
      rw [hs.name] at hr
      have hl' := fun c => hl d.schemaName name c
      cases hacc : Store.applyToRoots d₁.schema d₁.docs (env.tid name)
          (restoreOps (backup pot σ []) name d₁ (env.listing d.schemaName name)) with
      | mk a docs =>
        cases a with
        | error e =>
          simp only [restoreDatabase, hacc] at hr
          simp at hr
        | ok rs =>
          obtain ⟨d₂, hrd, hs2, hdocs, hent⟩ := restoreDatabase_ok hpot hn h hd hs hb hl' (env.tid name) (env.clock name) hacc
          rw [hrd] at hr
          simp only [if_true] at hr
          have hne : ∀ q ∈ dbs, q.2 ≠ name := by
            rintro ⟨sn', n'⟩ hq rfl
            obtain ⟨d', hd', e⟩ := hex _ (List.mem_cons_of_mem _ hq)
            simp only at hd' e
            have := hn.unique hd' hd rfl
            cases this
            subst e
            exact (List.nodup_cons.mp hnd).1 hq
          obtain ⟨r1, r2⟩ := ih (τ.put name d₂) τ' (List.nodup_cons.mp hnd).2
            (fun q hq => hex q (List.mem_cons_of_mem _ hq))
            (fun q hq d' d₁' hd' hg => by
              rw [get_put, if_neg (fun e => hne q hq e.symm)] at hg
              exact hready q (List.mem_cons_of_mem _ hq) d' d₁' hd' hg) hr
          refine ⟨?_, ?_⟩
          · intro q hq d' hd'
            rcases List.mem_cons.mp hq with rfl | hq
            · simp only at hd'
              have := hn.unique hd' hd rfl
              cases this
              refine ⟨d₂, ?_, hs2, hdocs, hent⟩
              rw [r2 name (fun sn hsn => hne _ hsn rfl), get_put, if_pos rfl]
            · exact r1 q hq d' hd'
          · intro m hm
            rw [r2 m (fun sn hsn => hm sn (List.mem_cons_of_mem _ hsn)), get_put, if_neg]
            rintro rfl
            exact hm _ (List.mem_cons_self ..)
    · simp at hr

/-- What is listed: the databases that have something stored. -/
theorem listed_iff {pot : Pot F} {σ : Storage F} (hn : Named σ) (h : ∀ p ∈ σ, Portable p.2)
    {dbs : List (QName × String)} (hdb : ListsDatabases (backup pot σ []) dbs) :
    (∀ q ∈ dbs, ∃ d, (q.2, d) ∈ σ ∧ q.1 = d.schemaName) ∧
    ∀ name d, (name, d) ∈ σ → ((d.schemaName, name) ∈ dbs ↔ ¬ Empty d) := by
  refine ⟨?_, ?_⟩
  · rintro ⟨sn, name⟩ hq
    obtain ⟨c, n, hs⟩ := (hdb.2 sn name).mp hq
    obtain ⟨o, ho⟩ := Option.isSome_iff_exists.mp hs
    rw [backup_eq, load_stores_iff (consistent_all hn h)] at ho
    unfold allObjects at ho
    obtain ⟨x, hx, hp⟩ := List.mem_flatMap.mp ho
    obtain ⟨e1, e2⟩ := objects_database hp
    simp only at e1 e2
    subst e1
    exact ⟨x.2, hx, e2⟩
  · intro name d hd
    rw [hdb.2]
    have hp := h _ hd
    constructor
    · rintro ⟨c, n, hs⟩ ⟨he1, he2⟩
      obtain ⟨o, ho⟩ := Option.isSome_iff_exists.mp hs
      rw [load_backup hn h hd, mem_objects] at ho
      rcases ho with ⟨c', -, hm⟩ | ⟨-, hm⟩
      · obtain ⟨id, doc, h1, -⟩ := mem_docObjects.mp hm
        rw [he1] at h1
        cases h1
      · obtain ⟨k, e, ns, key, h1, -⟩ := mem_kvObjects.mp hm
        rw [he2] at h1
        cases h1
    · intro hne
      by_cases hdocs : ∃ c id doc, Store.getDoc d.docs c id = some doc
      · obtain ⟨c, id, doc, hg⟩ := hdocs
        refine ⟨encodeQ c, DocId.display id, ?_⟩
        rw [(load_doc (pot := pot) hn h hd c _ _).mpr ⟨id, doc, hg, rfl, rfl⟩]
        rfl
      · by_cases hkv : ∃ k e, d.kv.get k = some e
        · obtain ⟨k, e, hg⟩ := hkv
          obtain ⟨ns, key, rfl, h0, hpl⟩ := hp.keys k e hg
          refine ⟨kvContainer, ns ++ marker ++ key, ?_⟩
          rw [(load_kv (pot := pot) hn h hd _ _).mpr ⟨ns, key, e, hg, h0, hpl, rfl, rfl⟩]
          rfl
        · exfalso
          apply hne
          refine ⟨fun c id => ?_, fun k => ?_⟩
          · cases hg : Store.getDoc d.docs c id with
            | none => rfl
            | some doc => exact absurd ⟨c, id, doc, hg⟩ hdocs
          · cases hg : d.kv.get k with
            | none => rfl
            | some e => exact absurd ⟨k, e, hg⟩ hkv

/-- **C49 (partial)**: a successful restore of a backup reproduces, in every database that had any data, its
schema, every document of every collection (ids and contents) and every key-value entry with its expiration,
provided all ids, namespaces and values are `Portable`.  Missing: databases without data are not recreated, and
the data that is not `Portable` (see the theorems `C49_violated_…`). -/
theorem C49_backup_restore_partial {pot : Pot F} (hpot : LawfulPot pot) {σ τ τ' : Storage F} (hn : Named σ)
    (h : ∀ p ∈ σ, Portable p.2) {registered : QName → Option Store.Schema}
    (hreg : ∀ p ∈ σ, registered p.2.schemaName = some p.2.schema) (hτ : Ready σ τ) {env : Env}
    (hl : ∀ s d c, ListsStored (backup pot σ []) s d c (env.listing s d c)) {dbs : List (QName × String)}
    (hdb : ListsDatabases (backup pot σ []) dbs)
    (hr : restore pot registered env (backup pot σ []) dbs τ = (true, τ')) (name : String) (d : Database F)
    (hd : (name, d) ∈ σ) :
    (¬ Empty d → ∃ d', τ'.get name = some d' ∧ Restored env name d d') ∧
      (Empty d → τ'.get name = τ.get name) := by
  obtain ⟨h1, h2⟩ := listed_iff hn h hdb
  obtain ⟨r1, r2⟩ := restore_each hpot hn h hreg hl dbs τ τ' hdb.1 h1
    (fun q _ d d₁ hd hg => hτ q.2 d d₁ hd hg) hr
  refine ⟨fun hne => r1 _ ((h2 name d hd).mpr hne) d hd, fun he => r2 name ?_⟩
  intro sn hm
  obtain ⟨d', hd', e⟩ := h1 _ hm
  have := hn.unique hd' hd rfl
  cases this
  simp only at e
  subst e
  exact (h2 name d hd).mp hm he

/-- **C49 (partial)**: restoring succeeds, if the databases have valid names and no eager views. -/
theorem C49_restore_succeeds_partial {pot : Pot F} (hpot : LawfulPot pot) {σ τ : Storage F} (hn : Named σ)
    (h : ∀ p ∈ σ, Portable p.2) {registered : QName → Option Store.Schema}
    (hreg : ∀ p ∈ σ, registered p.2.schemaName = some p.2.schema) (hτ : Ready σ τ) {env : Env}
    (hl : ∀ s d c, ListsStored (backup pot σ []) s d c (env.listing s d c)) {dbs : List (QName × String)}
    (hdb : ListsDatabases (backup pot σ []) dbs) (hvalid : ∀ p ∈ σ, validateName p.1 = true)
    (hne : ∀ p ∈ σ, ∀ c, Store.NoEager p.2.schema c)
    (hcoll : ∀ p ∈ σ, p.2.schema.collections.Nodup ∧ p.2.schema.collections.length ≤ 65536) :
    ∃ τ', restore pot registered env (backup pot σ []) dbs τ = (true, τ') := by
  obtain ⟨h1, -⟩ := listed_iff hn h hdb
  have hready : ∀ q ∈ dbs, ∀ d d₁, (q.2, d) ∈ σ → τ.get q.2 = some d₁ → Blank d₁ ∧ SameSchema d d₁ :=
    fun q _ d d₁ hd hg => hτ q.2 d d₁ hd hg
  have hnd := hdb.1
  clear hdb hτ
  induction dbs generalizing τ with
  | nil => exact ⟨_, rfl⟩
  | cons q dbs ih =>
    obtain ⟨sn, name⟩ := q
    obtain ⟨d, hd, hsn⟩ := h1 _ (List.mem_cons_self ..)
    simp only at hd hsn
    subst hsn
    rw [restore, if_pos (hvalid _ hd), hreg _ hd]
    simp only
    generalize hd₁ : (τ.get name).getD (.new d.schemaName d.schema (env.created name)) = d₁
    have hb : Blank d₁ ∧ SameSchema d d₁ := by
      cases hg : τ.get name with
      | none => rw [hg] at hd₁; subst hd₁; exact ⟨blank_new _ _ _, ⟨rfl, rfl⟩⟩
      | some d₂ =>
        rw [hg] at hd₁
        simp only [Option.getD_some] at hd₁
        subst hd₁
        exact hready _ (List.mem_cons_self ..) d d₂ hd hg
    obtain ⟨hb, hs⟩ := hb
    rw [hs.name]
    have hl' := fun c => hl d.schemaName name c
    obtain ⟨rs, docs, hacc⟩ := restore_accepted hn h hd hs hb hl' (env.tid name) (hne _ hd) (hcoll _ hd).1 (hcoll _ hd).2
    obtain ⟨d₂, hrd, -⟩ := restoreDatabase_ok hpot hn h hd hs hb hl' (env.tid name) (env.clock name) hacc
    rw [hrd]
    simp only [if_true]
    have hne' : ∀ q ∈ dbs, q.2 ≠ name := by
      rintro ⟨sn', n'⟩ hq rfl
      obtain ⟨d', hd', e⟩ := h1 _ (List.mem_cons_of_mem _ hq)
      simp only at hd' e
      have := hn.unique hd' hd rfl
      cases this
      subst e
      exact (List.nodup_cons.mp hnd).1 hq
    apply ih (fun q hq => h1 q (List.mem_cons_of_mem _ hq)) _ (List.nodup_cons.mp hnd).2
    intro q hq d' d₁' hd' hg
    rw [get_put, if_neg (fun e => hne' q hq e.symm)] at hg
    exact hready q (List.mem_cons_of_mem _ hq) d' d₁' hd' hg

/-! ## Objects that are not part of a backup -/

/-- C49: objects in the key-value folder whose names have no marker are skipped: the restore is that of the
other names. -/
theorem C49_other_files_ignored (pot : Pot F) (l : Loc) (sn : QName) (name : String) (ck : Bytes → KV.Clock)
    (names : List Bytes) (st : KV.St F) :
    restoreKv pot l sn name ck names st =
      restoreKv pot l sn name ck (names.filter fun n => (splitMarker n).isSome) st := by
  induction names generalizing st with
  | nil => rfl
  | cons n ns ih =>
    cases h : splitMarker n with
    | none =>
      rw [List.filter_cons_of_neg (by simp [h]), ← ih]
      simp only [restoreKv, h]
    | some q =>
      rw [List.filter_cons_of_pos (by simp [h])]
      simp only [restoreKv, h]
      cases (l.load ⟨sn, name, kvContainer, n⟩).bind pot.dec with
      | none => rfl
      | some e =>
        simp only
        generalize st.perform (ck n) (restoreCommand q.1 q.2 e) = r
        obtain ⟨r, st'⟩ := r
        cases r with
        | error _ => rfl
        | ok _ => exact ih st'

/-- C49: objects whose names are not document ids are skipped when documents are restored. -/
theorem C49_other_documents_ignored (l : Loc) (name : String) (d : Database F) (listing : Bytes → List Bytes) :
    restoreOps l name d listing =
      restoreOps l name d (fun c => (listing c).filter fun n => (DocId.parse n).isSome) := by
  unfold restoreOps
  congr 1
  funext c
  rw [List.filterMap_filter]
  congr 1
  funext n
  cases DocId.parse n <;> simp

/-- The names `r` and `a._key._b`: one is skipped. -/
example : ([[114], [97] ++ marker ++ [98]].filter fun n => (splitMarker n).isSome) = [[97] ++ marker ++ [98]] := by
  decide

end Bonsai.Backup
