import Verif.Typed.Spec

/-!
# Lemmas for C71
-/
set_option linter.unusedSimpArgs false
set_option linter.unusedVariables false

namespace Bonsai.Typed
open Bonsai Bonsai.Names Bonsai.Query Bonsai.Store

/-! ## Ids -/

theorem documentId_ok {K : KeyTy} {v : K.T} {b : Bytes} :
    documentId K v = .ok b ↔ K.enc v = some b ∧ b.length ≤ 65535 := by
  unfold documentId
  cases h : K.enc v with
  | none => simp
  | some c =>
    simp only [DocId.MAX_LENGTH]
    by_cases hl : c.length ≤ 65535
    · simp only [hl, if_true, Except.ok.injEq, Option.some.injEq]
      constructor
      · rintro rfl; exact ⟨rfl, hl⟩
      · exact fun h => h.1
    · simp only [hl, if_false, Option.some.injEq, reduceCtorEq, false_iff]
      rintro ⟨rfl, h⟩; exact hl h

theorem documentId_err {K : KeyTy} {v : K.T} {e : TErr} (h : documentId K v = .error e) :
    BadKey K v e := by
  unfold documentId at h
  cases hv : K.enc v with
  | none => rw [hv] at h; cases h; exact .noEncoding hv
  | some c =>
    rw [hv] at h
    simp only [DocId.MAX_LENGTH] at h
    by_cases hl : c.length ≤ 65535
    · simp only [hl, if_true] at h; cases h
    · simp only [hl, if_false] at h; cases h; exact .tooLong hv (by omega)

theorem decodeId_of {K : KeyTy} (hk : RoundTrips K) {v : K.T} {b : Bytes} (h : documentId K v = .ok b) :
    decodeId K b = .ok v := by
  obtain ⟨h1, h2⟩ := documentId_ok.mp h
  have h64 : b.length < 2 ^ 64 := by omega
  simp [decodeId, hk v b h1 h64]

theorem documentId_inj {K : KeyTy} (hk : RoundTrips K) {v w : K.T} {b : Bytes}
    (h : documentId K v = .ok b) (h' : documentId K w = .ok b) : v = w := by
  have := decodeId_of hk h
  rw [decodeId_of hk h'] at this
  cases this; rfl

theorem ser_ok {C : Coll} {x : C.Contents} {b} : ser C x = .ok b ↔ C.serialize x = some b := by
  unfold ser; cases C.serialize x <;> simp

theorem ser_err {C : Coll} {x : C.Contents} {e} (h : ser C x = .error e) : BadContents C x e := by
  unfold ser at h
  cases hx : C.serialize x with
  | none => rw [hx] at h; cases h; exact .mk hx
  | some b => rw [hx] at h; cases h

/-! ## The map of a collection -/

/-- The map a store holds for a collection. -/
def mapOf (C : Coll) (a : AbsStore) : TMap C := fun k =>
  match documentId C.key k with
  | .error _ => none
  | .ok id => (a C.name id).bind fun d => (C.deserialize d.2).map fun x => (d.1, x)

/-- Every document of the collection has an id of the key type and serialized contents. -/
def WellTyped (C : Coll) (a : AbsStore) : Prop :=
  ∀ id n b, a C.name id = some (n, b) → ∃ k x, documentId C.key k = .ok id ∧ C.serialize x = some b

variable {s : Schema} {C : Coll} {first : Option C.key.T} {next : C.key.T → Option C.key.T}
variable {a a' : AbsStore} {S : Bytes → Prop}

theorem mapOf_bad {k e} (h : documentId C.key k = .error e) : mapOf C a k = none := by
  simp [mapOf, h]

theorem mapOf_none (hl : Lawful s C first next) (ht : WellTyped C a) {k id}
    (h : documentId C.key k = .ok id) : mapOf C a k = none ↔ a C.name id = none := by
  simp only [mapOf, h]
  cases hd : a C.name id with
  | none => simp
  | some d =>
    obtain ⟨n, b⟩ := d
    obtain ⟨j, x, -, hx⟩ := ht id n b hd
    simp [hl.contents x b hx]

theorem mapOf_some (hl : Lawful s C first next) (ht : WellTyped C a) {k id n x}
    (h : documentId C.key k = .ok id) :
    mapOf C a k = some (n, x) ↔ ∃ b, a C.name id = some (n, b) ∧ C.serialize x = some b := by
  simp only [mapOf, h]
  cases hd : a C.name id with
  | none => simp
  | some d =>
    obtain ⟨n', b⟩ := d
    obtain ⟨j, y, -, hy⟩ := ht id n' b hd
    simp only [Option.bind_some, hl.contents y b hy, Option.map_some, Option.some.injEq, Prod.mk.injEq]
    constructor
    · rintro ⟨rfl, rfl⟩; exact ⟨b, ⟨rfl, rfl⟩, hy⟩
    · rintro ⟨c, ⟨rfl, rfl⟩, hx⟩
      refine ⟨rfl, ?_⟩
      have h1 := hl.contents x _ hx
      rw [hl.contents y _ hy] at h1
      cases h1; rfl

theorem mapOf_documentId {k v} (h : mapOf C a k = some v) : ∃ id, documentId C.key k = .ok id := by
  cases hd : documentId C.key k with
  | error e => rw [mapOf_bad hd] at h; cases h
  | ok id => exact ⟨id, rfl⟩

theorem mapOf_congr (h : ∀ id, a' C.name id = a C.name id) : mapOf C a' = mapOf C a := by
  funext k; simp only [mapOf, h]

theorem changed_put (hl : Lawful s C first next) {k id n x b} (h : documentId C.key k = .ok id)
    (hx : C.serialize x = some b) :
    Changed (mapOf C a) k (some (n, x)) (mapOf C (a.put C.name id (some (n, b)))) := by
  refine ⟨?_, ?_⟩
  · simp [mapOf, h, AbsStore.put, hl.contents x b hx]
  · intro j hj
    cases hd : documentId C.key j with
    | error e => rw [mapOf_bad hd, mapOf_bad hd]
    | ok i =>
      have : i ≠ id := by
        rintro rfl; exact hj (documentId_inj hl.key hd h)
      simp [mapOf, hd, AbsStore.put, this]

theorem changed_remove (hl : Lawful s C first next) {k id} (h : documentId C.key k = .ok id) :
    Changed (mapOf C a) k none (mapOf C (a.put C.name id none)) := by
  refine ⟨?_, ?_⟩
  · simp [mapOf, h, AbsStore.put]
  · intro j hj
    cases hd : documentId C.key j with
    | error e => rw [mapOf_bad hd, mapOf_bad hd]
    | ok i =>
      have : i ≠ id := by
        rintro rfl; exact hj (documentId_inj hl.key hd h)
      simp [mapOf, hd, AbsStore.put, this]

theorem wellTyped_put (ht : WellTyped C a) {k id n x b} (h : documentId C.key k = .ok id)
    (hx : C.serialize x = some b) : WellTyped C (a.put C.name id (some (n, b))) := by
  intro i n' b' hg
  simp only [AbsStore.put, true_and] at hg
  by_cases hi : i = id
  · simp only [hi, if_true, Option.some.injEq, Prod.mk.injEq] at hg
    exact ⟨k, x, by rw [hi, h], by rw [hx, hg.2]⟩
  · simp only [hi, if_false] at hg; exact ht i n' b' hg

theorem wellTyped_remove (ht : WellTyped C a) {id} : WellTyped C (a.put C.name id none) := by
  intro i n' b' hg
  simp only [AbsStore.put, true_and] at hg
  by_cases hi : i = id
  · simp only [hi, if_true] at hg; cases hg
  · simp only [hi, if_false] at hg; exact ht i n' b' hg

/-! ## Transactions of the collection -/

theorem apply_error {db : Db} {tid ops e db'} (h : applyToRoots s db tid ops = (.error e, db')) :
    db' = db := by
  unfold applyToRoots at h
  cases hp : prepare s db.trees ops with
  | error e' => rw [hp] at h; cases h; rfl
  | ok p => obtain ⟨t, ch, rs⟩ := p; rw [hp] at h; cases h

theorem not_tooMany {ops : List Operation} {c : QName} (h : ∀ op ∈ ops, op.collection = c) :
    ¬ TooManyCollections ops := by
  rintro ⟨l, hn, hlen, hl⟩
  have hall : ∀ x ∈ l, x = c := by
    intro x hx; obtain ⟨op, ho, rfl⟩ := hl x hx; exact h op ho
  match l, hn, hlen, hall with
  | [], _, hlen, _ => simp at hlen
  | [_], _, hlen, _ => simp at hlen
  | x :: y :: _, hn, _, hall =>
    have h1 := hall x (by simp)
    have h2 := hall y (by simp)
    subst h1; subst h2
    simp at hn

/-- A transaction on the collection alone. -/
theorem apply_refines (hS : CollisionFree s.digest S) (hl : Lawful s C first next) {db : Db}
    (hwf : DocsWF s.digest S db.trees.docs) {tid ops} (hw : Writes S ops)
    (hc : ∀ op ∈ ops, op.collection = C.name) :
    (∃ rs db', applyToRoots s db tid ops = (.ok rs, db') ∧ DocsWF s.digest S db'.trees.docs ∧
      SpecRun s db.trees.abs ops (.ok (db'.trees.abs, rs))) ∨
    (∃ e, applyToRoots s db tid ops = (.error e, db) ∧
      (SpecRun s db.trees.abs ops (.error e) ∨ Rejected s C (.db e))) := by
  obtain ⟨h1, h2⟩ := serve_refines (q := .transaction tid ops) hS hwf (by
    intro _ _ e; cases e; exact hw)
  simp only [serve] at h1 h2
  cases hap : applyToRoots s db tid ops with
  | mk r db' =>
    rw [hap] at h1 h2
    cases r with
    | ok rs =>
      left
      refine ⟨rs, db', rfl, h1, ?_⟩
      simp only at h2
      generalize hq : Answer.done (.ok rs) = an at h2
      generalize db'.trees.abs = z' at h2 ⊢
      generalize db.trees.abs = z at h2 ⊢
      cases h2 with
      | ok _ h => cases hq; exact h
      | fail _ h => cases hq
      | unknown _ => cases hq
      | rejected _ _ => cases hq
      | large _ => cases hq
    | error e =>
      right
      have := apply_error hap
      subst this
      refine ⟨e, rfl, ?_⟩
      simp only at h2
      generalize hq : Answer.done (.error e) = an at h2
      generalize hz : db'.trees.abs = z at h2 ⊢
      cases h2 with
      | ok _ h => cases hq
      | fail _ h => cases hq; exact .inl h
      | unknown h =>
        obtain ⟨op, ho, hn⟩ := h
        rw [hc op ho] at hn
        exact absurd hl.known hn
      | rejected he h =>
        cases hq
        obtain ⟨op, ho, v, hv, hvc, hve⟩ := h
        rw [hc op ho] at hvc
        exact .inr (.mk he ⟨v, hv, hvc, hve⟩)
      | large h => exact absurd h (not_tooMany hc)

theorem specRun_single_ok {op : Operation} {p} (h : SpecRun s a [op] (.ok p)) :
    ∃ last r, IsLargest a op.collection last ∧
      specOp s.digest a (s.nextId op.collection last) op = .ok (p.1, r) ∧ p.2 = [r] := by
  generalize hq : Except.ok p = q at h
  cases h with
  | fail hl h => cases hq
  | next_ok hl h hr =>
    cases hq
    rename_i a1 r last a2 rs
    generalize hq2 : Except.ok (a2, rs) = q2 at hr
    cases hr
    cases hq2
    exact ⟨last, r, hl, h, rfl⟩
  | next_fail hl h hr => cases hq

theorem specRun_single_err {op : Operation} {e} (h : SpecRun s a [op] (.error e)) :
    ∃ last, IsLargest a op.collection last ∧
      specOp s.digest a (s.nextId op.collection last) op = .error e := by
  generalize hq : Except.error e = q at h
  cases h with
  | fail hl h => cases hq; exact ⟨_, hl, h⟩
  | next_ok hl h hr => cases hq
  | next_fail hl h hr => cases hq; nomatch hr

/-- One operation on the collection. -/
theorem single_refines (hS : CollisionFree s.digest S) (hl : Lawful s C first next) {db : Db}
    (hwf : DocsWF s.digest S db.trees.docs) {tid cmd}
    (hw : ∀ x, cmd.contents = some x → S x) :
    (∃ last r db', applyToRoots s db tid [⟨C.name, cmd⟩] = (.ok [r], db') ∧
      DocsWF s.digest S db'.trees.docs ∧ IsLargest db.trees.abs C.name last ∧
      specOp s.digest db.trees.abs (s.nextId C.name last) ⟨C.name, cmd⟩ = .ok (db'.trees.abs, r)) ∨
    (∃ e, applyToRoots s db tid [⟨C.name, cmd⟩] = (.error e, db) ∧
      ((∃ last, IsLargest db.trees.abs C.name last ∧
        specOp s.digest db.trees.abs (s.nextId C.name last) ⟨C.name, cmd⟩ = .error e) ∨
        Rejected s C (.db e))) := by
  have hw' : Writes S [(⟨C.name, cmd⟩ : Operation)] := by
    intro op ho x hx; simp at ho; subst ho; exact hw x hx
  rcases apply_refines (tid := tid) hS hl hwf hw' (by simp) with ⟨rs, db', h1, h2, h3⟩ | ⟨e, h1, h2⟩
  · obtain ⟨last, r, g1, g2, g3⟩ := specRun_single_ok h3
    simp only at g2 g3
    subst g3
    exact .inl ⟨last, r, db', h1, h2, g1, g2⟩
  · right
    refine ⟨e, h1, ?_⟩
    rcases h2 with h2 | h2
    · exact .inl (specRun_single_err h2)
    · exact .inr h2

/-- Transactions on other collections do not touch the collection. -/
theorem specRun_frame {ops : List Operation} {p} (h : SpecRun s a ops (.ok p))
    (hc : ∀ op ∈ ops, op.collection ≠ C.name) (id : Bytes) : p.1 C.name id = a C.name id := by
  generalize hq : Except.ok p = q at h
  induction h generalizing p with
  | nil a => cases hq; rfl
  | fail hl h => cases hq
  | @next_ok a op ops a1 r last a2 rs hl h hr ih =>
    cases hq
    have h2 := ih (p := (a2, rs)) (fun op ho => hc op (List.mem_cons_of_mem _ ho)) rfl
    rw [h2]
    have hne := hc op List.mem_cons_self
    have put : ∀ i v, (a.put op.collection i v) C.name id = a C.name id := by
      intro i v
      simp only [AbsStore.put]
      have : ¬ (C.name = op.collection ∧ id = i) := fun h => hne h.1.symm
      simp only [this, if_false]
    have wr : ∀ {i d x a1 r}, absWrite s.digest a op.collection i d x = .ok (a1, r) →
        a1 C.name id = a C.name id := by
      intro i d x a1 r hw
      simp only [absWrite] at hw
      split at hw
      · cases hw; rfl
      · split at hw
        · cases hw; exact put _ _
        · cases hw
    simp only [specOp] at h
    cases hcmd : op.command with
    | insert oid x =>
      rw [hcmd] at h
      simp only at h
      split at h
      · cases h
      · split at h
        · cases h
        · cases h; exact put _ _
    | update hd x =>
      rw [hcmd] at h
      simp only at h
      split at h
      · cases h
      · split at h
        · exact wr h
        · cases h
    | overwrite i x =>
      rw [hcmd] at h
      simp only at h
      split at h
      · cases h; exact put _ _
      · exact wr h
    | delete hd =>
      rw [hcmd] at h
      simp only at h
      split at h
      · cases h
      · split at h
        · cases h; exact put _ _
        · cases h
    | check i rev =>
      rw [hcmd] at h
      simp only at h
      split at h
      · cases h
      · split at h
        · cases h; rfl
        · split at h
          · cases h; rfl
          · cases h
  | next_fail hl h hr => cases hq

/-! ## Writes -/

theorem ofHeader_of (hl : Lawful s C first next) {k id r} (h : documentId C.key k = .ok id) :
    CHeader.ofHeader C.key ⟨id, r⟩ = .ok ⟨k, r⟩ := by
  simp [CHeader.ofHeader, decodeId_of hl.key h]

theorem toHeader_of {k id} {r : Revision} (h : documentId C.key k = .ok id) :
    CHeader.toHeader (⟨k, r⟩ : CHeader C.key) = .ok ⟨id, r⟩ := by
  simp [CHeader.toHeader, h]

/-- What a write of serialized contents over a document does. -/
theorem write_refines (hl : Lawful s C first next) (ht : WellTyped C a) {k id n y x b b'}
    (hid : documentId C.key k = .ok id) (hy : C.serialize y = some b') (hx : C.serialize x = some b) :
    match absWrite s.digest a C.name id (n, b') b with
    | .ok (a', .updated _ h) => h.id = id ∧ WellTyped C a' ∧
        WriteSpec s.digest C (mapOf C a) k n y x (.ok ⟨⟨k, h.revision⟩, x⟩) (mapOf C a')
    | .ok _ => False
    | .error e => WriteSpec s.digest C (mapOf C a) k n y x (.error (.db e)) (mapOf C a) := by
  unfold absWrite
  by_cases he : b = b'
  · have hxy : x = y := by
      subst he
      have h1 := hl.contents x b hx
      rw [hl.contents y b hy] at h1
      cases h1; rfl
    simp only [he, if_true, headerOf]
    exact ⟨trivial, ht, .same hxy ⟨rfl, rfl, b, hx, by rw [he]⟩⟩
  · have hxy : x ≠ y := by
      rintro rfl; rw [hx] at hy; cases hy; exact he rfl
    simp only [he, if_false]
    by_cases hn : n + 1 < 2 ^ 32
    · simp only [hn, if_true, headerOf]
      exact ⟨trivial, wellTyped_put ht hid hx,
        .changed hxy hn ⟨rfl, rfl, b, hx, rfl⟩ (changed_put hl hid hx)⟩
    · simp only [hn, if_false]
      exact .exhausted hxy hn

end Bonsai.Typed
