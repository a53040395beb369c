import Verif.KV.Spec

/-!
# The invariant of the key-value store and the effect of each function on the visible contents
-/
set_option linter.unusedSimpArgs false
set_option linter.unusedSectionVars false

namespace Bonsai.KV
open Bonsai

variable {F : Type} [FloatOps F]

/-- The contents a state stands for. -/
def St.look (st : St F) : KvMap F := fun k => (st.get k).map fun e => (e.value, e.expiration)

/-- `expiring_keys` and `expiration_order` describe the expirations of the present entries. -/
structure ExpInv (st : St F) : Prop where
  tracked : ∀ k, st.expiring.get k = (st.get k).bind (·.expiration)
  nodup : st.order.Nodup
  queued : ∀ k, k ∈ st.order ↔ (st.expiring.get k).isSome
  sorted : st.order.Pairwise fun a b =>
    ∀ ta tb, st.expiring.get a = some ta → st.expiring.get b = some tb → ta ≤ tb

/-- The queue part alone: what the `unwrap`s of the code rely on. -/
structure QueueInv (ex : OMap Nat) (order : List Bytes) : Prop where
  nodup : order.Nodup
  queued : ∀ k, k ∈ order ↔ (ex.get k).isSome
  sorted : order.Pairwise fun a b => ∀ ta tb, ex.get a = some ta → ex.get b = some tb → ta ≤ tb

theorem ExpInv.queue {st : St F} (h : ExpInv st) : QueueInv st.expiring st.order :=
  ⟨h.nodup, h.queued, h.sorted⟩

/-- The persisting thread and the batch it holds. -/
structure PersistInv (st : St F) : Prop where
  idle : st.writer = .idle ↔ st.persisting = none
  written : st.writer = .written → ∀ b, st.persisting = some b → ∀ k e, b.get k = some e → st.disk.get k = e

/-! ## The expiration queue -/

theorem mem_insertOrder {ex : OMap Nat} {k : Bytes} {t : Nat} {l : List Bytes} {x : Bytes} :
    x ∈ insertOrder ex k t l ↔ x = k ∨ x ∈ l := by
  induction l with
  | nil => simp [insertOrder]
  | cons y l ih =>
    simp only [insertOrder]
    cases hy : ex.get y with
    | none =>
      simp only [List.mem_cons, ih]
      constructor
      · rintro (h | h | h) <;> simp [h]
      · rintro (h | h | h) <;> simp [h]
    | some ty =>
      simp only
      split
      · simp
      · simp only [List.mem_cons, ih]
        constructor
        · rintro (h | h | h) <;> simp [h]
        · rintro (h | h | h) <;> simp [h]

theorem nodup_insertOrder {ex : OMap Nat} {k : Bytes} {t : Nat} {l : List Bytes} (h : l.Nodup)
    (hk : k ∉ l) : (insertOrder ex k t l).Nodup := by
  induction l with
  | nil => simp [insertOrder]
  | cons y l ih =>
    obtain ⟨h1, h2⟩ := List.nodup_cons.mp h
    simp only [List.mem_cons, not_or] at hk
    have hrec : (y :: insertOrder ex k t l).Nodup := by
      refine List.nodup_cons.mpr ⟨?_, ih h2 hk.2⟩
      rw [mem_insertOrder]
      rintro (h | h)
      · exact hk.1 h.symm
      · exact h1 h
    simp only [insertOrder]
    cases hy : ex.get y with
    | none => exact hrec
    | some ty =>
      simp only
      split
      · exact List.nodup_cons.mpr ⟨by simp [hk.1, hk.2], h⟩
      · exact hrec

theorem sorted_insertOrder {ex : OMap Nat} {k : Bytes} {t : Nat} {l : List Bytes}
    (hs : l.Pairwise fun a b => ∀ ta tb, ex.get a = some ta → ex.get b = some tb → ta ≤ tb)
    (hk : k ∉ l) (hall : ∀ x ∈ l, (ex.get x).isSome) :
    (insertOrder ex k t l).Pairwise fun a b =>
      ∀ ta tb, (ex.set k t).get a = some ta → (ex.set k t).get b = some tb → ta ≤ tb := by
  induction l with
  | nil => simp [insertOrder]
  | cons y l ih =>
    obtain ⟨h1, h2⟩ := List.pairwise_cons.mp hs
    simp only [List.mem_cons, not_or] at hk
    have hky : k ≠ y := hk.1
    obtain ⟨ty, hy⟩ := Option.isSome_iff_exists.mp (hall y (by simp))
    simp only [insertOrder, hy]
    split
    · rename_i hlt
      refine List.pairwise_cons.mpr ⟨?_, List.pairwise_cons.mpr ⟨?_, ?_⟩⟩
      · intro b hb ta tb ha hb'
        rw [OMap.get_set_self] at ha
        cases ha
        simp only [List.mem_cons] at hb
        rcases hb with rfl | hb
        · rw [OMap.get_set_ne _ hky, hy] at hb'; cases hb'; omega
        · have hkb : k ≠ b := by rintro rfl; exact hk.2 hb
          rw [OMap.get_set_ne _ hkb] at hb'
          have := h1 b hb ty tb hy hb'
          omega
      · intro b hb ta tb ha hb'
        have hkb : k ≠ b := by rintro rfl; exact hk.2 hb
        rw [OMap.get_set_ne _ hky] at ha
        rw [OMap.get_set_ne _ hkb] at hb'
        exact h1 b hb ta tb ha hb'
      · refine List.Pairwise.imp_of_mem ?_ h2
        intro a b ha hb hab ta tb ha' hb'
        have hka : k ≠ a := by rintro rfl; exact hk.2 ha
        have hkb : k ≠ b := by rintro rfl; exact hk.2 hb
        rw [OMap.get_set_ne _ hka] at ha'
        rw [OMap.get_set_ne _ hkb] at hb'
        exact hab ta tb ha' hb'
    · rename_i hlt
      refine List.pairwise_cons.mpr ⟨?_, ih h2 hk.2 (fun x hx => hall x (by simp [hx]))⟩
      intro b hb ta tb ha hb'
      rw [OMap.get_set_ne _ hky, hy] at ha
      cases ha
      rw [mem_insertOrder] at hb
      rcases hb with rfl | hb
      · rw [OMap.get_set_self] at hb'; cases hb'; omega
      · have hkb : k ≠ b := by rintro rfl; exact hk.2 hb
        rw [OMap.get_set_ne _ hkb] at hb'
        exact h1 b hb _ tb hy hb'

theorem QueueInv.erase {ex : OMap Nat} {order : List Bytes} (h : QueueInv ex order) (k : Bytes) :
    QueueInv (ex.remove k) (order.erase k) := by
  refine ⟨h.nodup.erase k, ?_, ?_⟩
  · intro x
    rw [h.nodup.mem_erase_iff, h.queued]
    by_cases hx : x = k
    · subst hx; simp
    · rw [OMap.get_remove_ne _ (Ne.symm hx)]; simp [hx]
  · refine List.Pairwise.imp_of_mem ?_ (h.sorted.sublist List.erase_sublist)
    intro a b ha hb hab ta tb ha' hb'
    rw [h.nodup.mem_erase_iff] at ha hb
    rw [OMap.get_remove_ne _ (Ne.symm ha.1)] at ha'
    rw [OMap.get_remove_ne _ (Ne.symm hb.1)] at hb'
    exact hab ta tb ha' hb'

theorem insertOrder_congr {ex ex' : OMap Nat} {k : Bytes} {t : Nat} {l : List Bytes}
    (h : ∀ x ∈ l, ex.get x = ex'.get x) : insertOrder ex k t l = insertOrder ex' k t l := by
  induction l with
  | nil => rfl
  | cons y l ih =>
    simp only [insertOrder]
    rw [h y (by simp), ih (fun x hx => h x (by simp [hx]))]

theorem QueueInv.insert {ex : OMap Nat} {order : List Bytes} (h : QueueInv ex order) {k : Bytes}
    (hk : ex.get k = none) (t : Nat) : QueueInv (ex.set k t) (insertOrder ex k t order) := by
  have hko : k ∉ order := by rw [h.queued, hk]; simp
  refine ⟨nodup_insertOrder h.nodup hko, ?_, sorted_insertOrder h.sorted hko (fun x hx => (h.queued x).mp hx)⟩
  intro x
  rw [mem_insertOrder, h.queued, OMap.get_set]
  by_cases hx : k = x
  · subst hx; simp
  · have : x ≠ k := Ne.symm hx
    simp [hx, this]

theorem remove_set_expiring (ex : OMap Nat) (k : Bytes) (t : Nat) : (ex.remove k).set k t = ex.set k t := by
  apply OMap.ext_get
  intro x
  rw [OMap.get_set, OMap.get_set]
  by_cases hx : k = x
  · simp [hx]
  · simp [hx, OMap.get_remove_ne _ hx]

theorem updateExpiration_queue {st : St F} (h : QueueInv st.expiring st.order) (k : Bytes)
    (x : Option Nat) :
    QueueInv (st.updateExpiration k x).expiring (st.updateExpiration k x).order := by
  cases x with
  | some t =>
    simp only [St.updateExpiration]
    split
    · have he := h.erase k
      have hi := he.insert (k := k) (by simp) t
      rw [remove_set_expiring] at hi
      rw [insertOrder_congr (ex' := st.expiring.remove k)]
      · exact hi
      · intro x hx
        rw [h.nodup.mem_erase_iff] at hx
        rw [OMap.get_remove_ne _ (Ne.symm hx.1)]
    · rename_i hn
      exact h.insert (by simpa using hn) t
  | none =>
    simp only [St.updateExpiration]
    split
    · exact h.erase k
    · exact h

theorem updateExpiration_get {st : St F} (k : Bytes) (x : Option Nat) (k' : Bytes) :
    (st.updateExpiration k x).get k' = st.get k' := by
  cases x with
  | some t => rfl
  | none => simp only [St.updateExpiration]; split <;> rfl

theorem updateExpiration_dirty {st : St F} (k : Bytes) (x : Option Nat) :
    (st.updateExpiration k x).dirty = st.dirty ∧ (st.updateExpiration k x).persisting = st.persisting ∧
    (st.updateExpiration k x).disk = st.disk ∧ (st.updateExpiration k x).writer = st.writer ∧
    (st.updateExpiration k x).log = st.log ∧ (st.updateExpiration k x).shutdown = st.shutdown ∧
    (st.updateExpiration k x).persistence = st.persistence ∧
    (st.updateExpiration k x).lastCommit = st.lastCommit ∧
    (st.updateExpiration k x).target = st.target := by
  cases x with
  | some t => exact ⟨rfl, rfl, rfl, rfl, rfl, rfl, rfl, rfl, rfl⟩
  | none =>
    simp only [St.updateExpiration]
    split <;> exact ⟨rfl, rfl, rfl, rfl, rfl, rfl, rfl, rfl, rfl⟩

theorem updateExpiration_expiring {st : St F} (k : Bytes) (x : Option Nat) (k' : Bytes) :
    (st.updateExpiration k x).expiring.get k' = if k = k' then x else st.expiring.get k' := by
  cases x with
  | some t => simp only [St.updateExpiration, OMap.get_set]
  | none =>
    simp only [St.updateExpiration]
    split
    · rw [OMap.get_remove]
    · rename_i hn
      by_cases hk : k = k'
      · subst hk; simpa using hn
      · simp [hk]

/-! ## Writing one key -/

/-- `dirty_keys.insert(key, value)`: what every write does to the visible contents. -/
def St.writeDirty (st : St F) (k : Bytes) (x : Option (Entry F)) : St F :=
  { st with dirty := st.dirty.set k x }

theorem writeDirty_get (st : St F) (k : Bytes) (x : Option (Entry F)) (k' : Bytes) :
    (st.writeDirty k x).get k' = if k = k' then x else st.get k' := by
  simp only [St.get, St.writeDirty, OMap.get_set]
  by_cases h : k = k' <;> simp [h]

theorem expInv_write {st : St F} (h : ExpInv st) (k : Bytes) (x : Option (Entry F)) :
    ExpInv ((st.updateExpiration k (x.bind (·.expiration))).writeDirty k x) := by
  have hq := updateExpiration_queue h.queue k (x.bind (·.expiration))
  refine ⟨?_, hq.nodup, hq.queued, hq.sorted⟩
  intro k'
  rw [writeDirty_get, updateExpiration_get]
  show (st.updateExpiration k _).expiring.get k' = _
  rw [updateExpiration_expiring]
  split
  · rfl
  · exact h.tracked k'

theorem look_write {st : St F} (k : Bytes) (x : Option (Entry F)) (t : Option Nat) :
    ((st.updateExpiration k t).writeDirty k x).look =
      Spec.put st.look k (x.map fun e => (e.value, e.expiration)) := by
  funext k'
  simp only [St.look, writeDirty_get, updateExpiration_get, Spec.put]
  by_cases h : k = k'
  · subst h; simp
  · have : k' ≠ k := Ne.symm h
    simp [h, this]

theorem look_writeDirty {st : St F} (k : Bytes) (x : Option (Entry F)) :
    (st.writeDirty k x).look = Spec.put st.look k (x.map fun e => (e.value, e.expiration)) := by
  funext k'
  simp only [St.look, writeDirty_get, Spec.put]
  by_cases h : k = k'
  · subst h; simp
  · have : k' ≠ k := Ne.symm h
    simp [h, this]

theorem remove_eq (st : St F) (k : Bytes) :
    st.remove k = (st.get k, (st.updateExpiration k none).writeDirty k none) := by
  have hg := updateExpiration_get (st := st) k none k
  simp only [St.remove]
  rw [← hg]
  simp only [St.get, St.writeDirty]
  cases (st.updateExpiration k none).dirty.get k with
  | some e => rfl
  | none =>
    simp only
    cases ((st.updateExpiration k none).persisting.bind fun b => b.get k) with
    | some e => rfl
    | none => rfl

theorem replace_eq (st : St F) (k : Bytes) (e : Entry F) :
    st.replace k e = (st.get k, st.writeDirty k (some e)) := by
  simp only [St.replace, St.get, St.writeDirty]
  cases st.dirty.get k with
  | some e => rfl
  | none => rfl

/-! ## Expiry -/

theorem removeLoop_spec (now : Nat) (order : List Bytes) (ex : OMap Nat)
    (d : OMap (Option (Entry F))) (h : QueueInv ex order) :
    QueueInv (removeLoop now order ex d).2.1 (removeLoop now order ex d).1 ∧
    (∀ k, (removeLoop now order ex d).2.1.get k =
      match ex.get k with | some t => if t ≤ now then none else some t | none => none) ∧
    (∀ k, (removeLoop now order ex d).2.2.get k =
      match ex.get k with | some t => if t ≤ now then some none else d.get k | none => d.get k) := by
  induction order generalizing ex d with
  | nil =>
    have hn : ∀ k, ex.get k = none := by
      intro k
      have := h.queued k
      simpa using this
    refine ⟨h, ?_, ?_⟩
    · intro k; simp [removeLoop, hn]
    · intro k; simp [removeLoop, hn]
  | cons x xs ih =>
    obtain ⟨t, hx⟩ := Option.isSome_iff_exists.mp ((h.queued x).mp (by simp))
    simp only [removeLoop, hx]
    split
    · rename_i hle
      have he : QueueInv (ex.remove x) xs := by
        have := h.erase x
        simpa using this
      obtain ⟨i1, i2, i3⟩ := ih (ex.remove x) (d.set x none) he
      refine ⟨i1, ?_, ?_⟩
      · intro k
        rw [i2]
        by_cases hk : x = k
        · subst hk; simp [hx, hle]
        · rw [OMap.get_remove_ne _ hk]
      · intro k
        rw [i3]
        by_cases hk : x = k
        · subst hk; simp [hx, hle]
        · rw [OMap.get_remove_ne _ hk, OMap.get_set_ne _ hk]
    · rename_i hlt
      have hall : ∀ k t', ex.get k = some t' → ¬ t' ≤ now := by
        intro k t' hk hle
        have hm := (h.queued k).mpr (by simp [hk])
        simp only [List.mem_cons] at hm
        rcases hm with rfl | hm
        · rw [hx] at hk; cases hk; exact hlt hle
        · have := (List.pairwise_cons.mp h.sorted).1 k hm t t' hx hk
          omega
      refine ⟨h, ?_, ?_⟩
      · intro k
        cases hk : ex.get k with
        | none => rfl
        | some t' => simp [hall k t' hk]
      · intro k
        cases hk : ex.get k with
        | none => rfl
        | some t' => simp [hall k t' hk]

theorem removeExpired_get {st : St F} (h : ExpInv st) (now : Nat) (k : Bytes) :
    (st.removeExpired now).get k =
      match st.get k with
      | some e => (match e.expiration with | some t => if t ≤ now then none else some e | none => some e)
      | none => none := by
  obtain ⟨_, _, i3⟩ := removeLoop_spec now st.order st.expiring st.dirty h.queue
  have hd : (st.removeExpired now).dirty.get k =
    match st.expiring.get k with | some t => if t ≤ now then some none else st.dirty.get k | none => st.dirty.get k := i3 k
  have hkeep : (st.removeExpired now).dirty.get k = st.dirty.get k →
      (st.removeExpired now).get k = st.get k := by
    intro he
    simp only [St.get, he]
    rfl
  have ht := h.tracked k
  cases hg : st.get k with
  | none =>
    rw [hg] at ht
    simp only [Option.bind_none] at ht
    rw [ht] at hd
    simp only
    rw [hkeep hd, hg]
  | some e =>
    rw [hg] at ht
    simp only [Option.bind_some] at ht
    rw [ht] at hd
    simp only
    cases hx : e.expiration with
    | none =>
      rw [hx] at hd
      simp only
      rw [hkeep hd, hg]
    | some t =>
      rw [hx] at hd
      simp only at hd ⊢
      split
      · rename_i hle
        rw [if_pos hle] at hd
        simp only [St.get, hd]
      · rename_i hle
        rw [if_neg hle] at hd
        rw [hkeep hd, hg]

theorem removeExpired_inv {st : St F} (h : ExpInv st) (now : Nat) : ExpInv (st.removeExpired now) := by
  obtain ⟨i1, i2, i3⟩ := removeLoop_spec now st.order st.expiring st.dirty h.queue
  refine ⟨?_, i1.nodup, i1.queued, i1.sorted⟩
  intro k
  rw [removeExpired_get h]
  have i2' : (st.removeExpired now).expiring.get k =
    match st.expiring.get k with | some t => if t ≤ now then none else some t | none => none := i2 k
  rw [i2', h.tracked k]
  cases st.get k with
  | none => rfl
  | some e =>
    simp only [Option.bind_some]
    cases hx : e.expiration with
    | none => simp [hx]
    | some t =>
      simp only
      split
      · rfl
      · simp [hx]

theorem removeExpired_look {st : St F} (h : ExpInv st) (now : Nat) :
    (st.removeExpired now).look = Spec.expire now st.look := by
  funext k
  simp only [St.look, Spec.expire, removeExpired_get h]
  cases st.get k with
  | none => rfl
  | some e =>
    obtain ⟨v, x, u⟩ := e
    cases x with
    | none => rfl
    | some t =>
      simp only [Option.map_some]
      split <;> simp_all

/-! ## Commands -/

/-- A command only touches the dirty keys and the expiration queue. -/
structure SameBack (st st' : St F) : Prop where
  persisting : st'.persisting = st.persisting
  disk : st'.disk = st.disk
  writer : st'.writer = st.writer
  log : st'.log = st.log
  shutdown : st'.shutdown = st.shutdown
  persistence : st'.persistence = st.persistence
  lastCommit : st'.lastCommit = st.lastCommit
  target : st'.target = st.target

theorem SameBack.refl (st : St F) : SameBack st st := ⟨rfl, rfl, rfl, rfl, rfl, rfl, rfl, rfl⟩

theorem SameBack.write (st : St F) (k : Bytes) (t : Option Nat) (x : Option (Entry F)) :
    SameBack st ((st.updateExpiration k t).writeDirty k x) := by
  obtain ⟨_, h2, h3, h4, h5, h6, h7, h8, h9⟩ := updateExpiration_dirty (st := st) k t
  exact ⟨h2, h3, h4, h5, h6, h7, h8, h9⟩

theorem SameBack.writeDirty (st : St F) (k : Bytes) (x : Option (Entry F)) :
    SameBack st (st.writeDirty k x) := ⟨rfl, rfl, rfl, rfl, rfl, rfl, rfl, rfl⟩

theorem SameBack.removeExpired (st : St F) (now : Nat) : SameBack st (st.removeExpired now) :=
  ⟨rfl, rfl, rfl, rfl, rfl, rfl, rfl, rfl⟩

theorem SameBack.trans {a b c : St F} (h : SameBack a b) (g : SameBack b c) : SameBack a c :=
  ⟨g.persisting.trans h.persisting, g.disk.trans h.disk, g.writer.trans h.writer, g.log.trans h.log,
   g.shutdown.trans h.shutdown, g.persistence.trans h.persistence, g.lastCommit.trans h.lastCommit,
   g.target.trans h.target⟩

theorem SameBack.persist {a b : St F} (h : SameBack a b) (hp : PersistInv a) : PersistInv b := by
  obtain ⟨h1, h2⟩ := hp
  refine ⟨?_, ?_⟩
  · rw [h.writer, h.persisting]; exact h1
  · rw [h.writer, h.persisting, h.disk]; exact h2

/-- What a command leaves behind. -/
structure ExecOk (st : St F) (r : Except Err (Output F) × St F)
    (s : Except Err (Output F) × KvMap F) : Prop where
  answer : r.1 = s.1
  look : r.2.look = s.2
  inv : ExpInv r.2
  back : SameBack st r.2

theorem look_some {st : St F} {k : Bytes} {e : Entry F} (h : st.get k = some e) :
    st.look k = some (e.value, e.expiration) := by simp [St.look, h]

theorem look_none {st : St F} {k : Bytes} (h : st.get k = none) : st.look k = none := by
  simp [St.look, h]

theorem set_eq (st : St F) (k : Bytes) (e : Entry F) : st.set k e = st.writeDirty k (some e) := rfl

theorem updateExpiration_writeDirty_replace (st : St F) (k : Bytes) (t : Option Nat) (e : Entry F) :
    (st.updateExpiration k t).replace k e = (st.get k, (st.updateExpiration k t).writeDirty k (some e)) := by
  rw [replace_eq, updateExpiration_get]

theorem execSet_ok {st : St F} (h : ExpInv st) (k : Bytes) (c : SetCommand F) (now : Nat) :
    ExecOk st (st.execSet k c now) (Spec.set st.look k c) := by
  simp only [St.execSet, Spec.set]
  cases hv : c.value.validate with
  | error e => exact ⟨rfl, rfl, h, .refl _⟩
  | ok v =>
    simp only
    have hinv : ∀ x : Option Nat, ExpInv ((st.updateExpiration k x).writeDirty k (some ⟨v, x, now⟩)) :=
      fun x => expInv_write h k (some ⟨v, x, now⟩)
    have hlook : ∀ x : Option Nat, ((st.updateExpiration k x).writeDirty k (some (⟨v, x, now⟩ : Entry F))).look
        = Spec.put st.look k (some (v, x)) := fun x => look_write k (some ⟨v, x, now⟩) x
    have hpres : (st.look k).isSome = (st.get k).isSome := by simp [St.look]
    have hval : (st.look k).map (·.1) = (st.get k).map (·.value) := by
      simp only [St.look, Option.map_map]; rfl
    have key : ∀ (f : Option (Option (Entry F))) (x : Option Nat), (f = some (st.get k) ∨ f = none) →
        ExecOk st
          (let y : Option (Entry F) × St F := (match f with
            | some e => (e, (st.updateExpiration k x).set k ⟨v, x, now⟩)
            | none => (st.updateExpiration k x).replace k ⟨v, x, now⟩)
           if c.returnPrevious = true then (.ok (.value (y.1.map (·.value))), y.2)
           else match y.1 with
            | none => (.ok (.status .inserted), y.2)
            | some _ => (.ok (.status .updated), y.2))
          (.ok (if c.returnPrevious = true then .value ((st.look k).map (·.1))
            else .status (if (st.look k).isSome = true then .updated else .inserted)),
            Spec.put st.look k (some (v, x))) := by
      intro f x hf
      have hy : ∀ f : Option (Option (Entry F)), (f = some (st.get k) ∨ f = none) → (match f with
            | some e => (e, (st.updateExpiration k x).set k ⟨v, x, now⟩)
            | none => (st.updateExpiration k x).replace k ⟨v, x, now⟩) =
          (st.get k, (st.updateExpiration k x).writeDirty k (some ⟨v, x, now⟩)) := by
        rintro f (rfl | rfl)
        · rfl
        · exact updateExpiration_writeDirty_replace st k x _
      rw [hy f hf, hval, hpres]
      simp only
      by_cases hr : c.returnPrevious = true
      · simp only [hr, if_true]
        exact ⟨rfl, hlook x, hinv x, SameBack.write _ _ _ _⟩
      · simp only [hr]
        cases hg : st.get k with
        | none => exact ⟨rfl, hlook x, hinv x, SameBack.write _ _ _ _⟩
        | some e => exact ⟨rfl, hlook x, hinv x, SameBack.write _ _ _ _⟩
    have hupd : checkPasses (st.get k) c.check = Spec.passes (st.look k).isSome c.check := by
      rw [hpres]
      rcases hc : c.check with _ | (_ | _)
      · rfl
      · rfl
      · simp only [Spec.passes, checkPasses]
        cases st.get k <;> rfl
    have hexp : (if c.keepExisting = true then keptExpiration (st.get k) c.expiration else c.expiration) =
        (match c.keepExisting, st.look k with | true, some (_, t) => t | _, _ => c.expiration) := by
      cases hk : c.keepExisting
      · simp
      · cases hg : st.get k with
        | none => simp [look_none hg, keptExpiration]
        | some e => simp [look_some hg, keptExpiration]
    by_cases hf : c.check.isSome = true ∨ c.returnPrevious = true ∨ c.keepExisting = true
    · simp only [if_pos hf, Option.bind_some, id_eq]
      rw [hupd]
      split
      · rw [hexp]
        exact key (some (st.get k)) _ (.inl rfl)
      · exact ⟨rfl, rfl, h, .refl _⟩
    · have hc : c.check = none := by
        cases hc : c.check with
        | none => rfl
        | some x => simp [hc] at hf
      have hk : c.keepExisting = false := by
        cases hk : c.keepExisting
        · rfl
        · simp [hk] at hf
      simp only [if_neg hf]
      simp only [hc, hk, Spec.passes, checkPasses, if_true, Bool.false_eq_true, if_false]
      exact key none c.expiration (.inr rfl)

theorem execNumeric_ok {st : St F} (h : ExpInv st) (k : Bytes) (a : Numeric F) (s : Bool) (now : Nat)
    (op : Numeric F → Numeric F → Bool → Numeric F) :
    ExecOk st (st.execNumeric k a s now op) (Spec.numeric st.look k (fun n => op n a s)) := by
  have hset : ∀ e : Entry F, ExpInv st → (st.get k).bind (·.expiration) = e.expiration →
      ExpInv (st.set k e) := by
    intro e h he
    refine ⟨?_, h.nodup, h.queued, h.sorted⟩
    intro k'
    rw [set_eq, writeDirty_get]
    show st.expiring.get k' = _
    split
    · rename_i hk; subst hk; rw [h.tracked, he]; rfl
    · exact h.tracked k'
  simp only [St.execNumeric, Spec.numeric]
  cases hg : st.get k with
  | none =>
    rw [look_none hg]
    simp only [Option.getD_none]
    cases hn : (op (.unsigned 0) a s).validate with
    | error e => exact ⟨rfl, rfl, h, .refl _⟩
    | ok n =>
      refine ⟨rfl, look_writeDirty k _, hset _ h (by rw [hg]; rfl), .writeDirty _ _ _⟩
  | some e =>
    rw [look_some hg]
    simp only [Option.getD_some]
    cases hv : e.value with
    | bytes b => exact ⟨rfl, rfl, h, .refl _⟩
    | numeric m =>
      simp only
      cases hn : (op m a s).validate with
      | error e => exact ⟨rfl, rfl, h, .refl _⟩
      | ok n =>
        refine ⟨rfl, look_writeDirty k _, hset _ h (by rw [hg]; rfl), .writeDirty _ _ _⟩

theorem exec_ok {st : St F} (h : ExpInv st) (now : Nat) (op : KeyOp F) :
    ExecOk st (st.exec now op) (Spec.exec st.look op) := by
  have hval : (st.look op.key).map (·.1) = (st.get op.key).map (·.value) := by
    simp only [St.look, Option.map_map]; rfl
  simp only [St.exec, Spec.exec]
  rcases op with ⟨k, c⟩
  cases c with
  | set c => exact execSet_ok h k c now
  | get d =>
    cases d with
    | false => exact ⟨by simp only at hval ⊢; rw [hval], rfl, h, .refl _⟩
    | true =>
      simp only [remove_eq]
      refine ⟨by simp only at hval ⊢; rw [hval], look_write k none none, expInv_write h k none, .write _ _ _ _⟩
  | delete =>
    simp only [remove_eq]
    refine ⟨?_, look_write k none none, expInv_write h k none, .write _ _ _ _⟩
    simp only [St.look, Option.isSome_map]
    cases st.get k <;> rfl
  | increment a s => exact execNumeric_ok h k a s now increment
  | decrement a s => exact execNumeric_ok h k a s now decrement

end Bonsai.KV
