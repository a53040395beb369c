import Verif.Store.Step
import Verif.Key.Props

/-!
# C22: inserts never overwrite; automatic ids
-/
set_option linter.unusedSimpArgs false
set_option linter.unusedVariables false

namespace Bonsai.Store
open Bonsai Bonsai.Names

/-- **C22.** Anywhere in a transaction: an insert with the id of an existing document fails with a
conflict naming the stored document, and nothing changes. -/
theorem C22_insert_existing_rejected (s : Schema) (db : Db) (tid : Nat) (c : QName) (id x : Bytes)
    (pre post : List Operation) (t1 : Trees) (ch : Changes) (rs : List OpResult) (d : Document)
    (hk : ∀ o ∈ pre ++ ⟨c, .insert (some id) x⟩ :: post, o.collection ∈ s.collections)
    (hpre : runOps s db.trees ⟨[], []⟩ pre = .ok (t1, ch, rs))
    (hd : (t1.docs c).get id = some d) :
    applyToRoots s db tid (pre ++ ⟨c, .insert (some id) x⟩ :: post) =
      (.error (.conflict c d.header), db) := by
  refine apply_fail hk hpre ?_
  simp [execOp, execInsert, hd]

/-- **C22.** A successful insert, with or without an id, put the document under an id no document
had, and left all other documents alone. -/
theorem C22_insert_is_fresh (s : Schema) (db : Db) (tid : Nat) (c : QName) (hk : c ∈ s.collections)
    (oid : Option Bytes) (x : Bytes) (rs : List OpResult)
    (hok : (applyToRoots s db tid [⟨c, .insert oid x⟩]).1 = .ok rs) :
    ∃ h, rs = [.updated c h] ∧ getDoc db c h.id = none ∧
      getDoc (applyToRoots s db tid [⟨c, .insert oid x⟩]).2 c h.id = some ⟨h, x⟩ ∧
      ∀ c' id', ¬ (c' = c ∧ id' = h.id) →
        getDoc (applyToRoots s db tid [⟨c, .insert oid x⟩]).2 c' id' = getDoc db c' id' := by
  rcases apply_single (s := s) (db := db) (tid := tid) (op := ⟨c, .insert oid x⟩) hk with
    ⟨t', r, ch, hex, happ⟩ | ⟨e, hex, happ⟩
  · obtain ⟨h, rfl, -, -, h1, h2, h3⟩ := C23_insert_starts_at_zero s _ _ c oid x r hex
    rw [happ] at hok ⊢
    cases hok
    exact ⟨h, rfl, h1, h2, h3⟩
  · rw [happ] at hok; cases hok

/-! ## Automatic ids -/

/-- `KeyIdGenerator::next_id`, core schema/schematic.rs:304-315: the last id (or the first value of
the key type) is decoded, its successor encoded.  `first`/`next` are the key type's `first_value` /
`next_value`; ids are at most 65535 bytes (document/id.rs). -/
def keyNextId (k : KeyTy) (first : Option k.T) (next : k.T → Option k.T) (last : Option Bytes) :
    Option Bytes :=
  let key := match last with
    | none => first
    | some id => match k.dec id with
      | .ok v => some v
      | _ => none
  (key.bind next).bind fun v => (k.enc v).bind fun b => if b.length ≤ 65535 then some b else none

/-- The successor of a value is larger than it. -/
def Increasing (k : KeyTy) (next : k.T → Option k.T) : Prop := ∀ v w, next v = some w → k.lt v w

/-- Only the encoding of a value decodes to it. -/
def Canonical (k : KeyTy) : Prop := ∀ b v, k.dec b = .ok v → k.enc v = some b

/-- **C22.** For a primary key whose encoding preserves the order, an automatic id is larger than
every id in use. -/
theorem C22_auto_id_larger (s : Schema) (db : Db) (tid : Nat) (c : QName) (hk : c ∈ s.collections)
    (k : KeyTy) (first : Option k.T) (next : k.T → Option k.T)
    (hid : s.nextId c = keyNextId k first next) (hsort : SortsCorrectly k) (hcan : Canonical k)
    (hinc : Increasing k next) (x : Bytes) (rs : List OpResult)
    (hok : (applyToRoots s db tid [⟨c, .insert none x⟩]).1 = .ok rs) :
    ∃ h, rs = [.updated c h] ∧ ∀ id, getDoc db c id ≠ none → id < h.id := by
  rcases apply_single (s := s) (db := db) (tid := tid) (op := ⟨c, .insert none x⟩) hk with
    ⟨t', r, ch, hex, happ⟩ | ⟨e, hex, happ⟩
  · rw [happ] at hok
    cases hok
    simp only [execOp, execInsert, Option.orElse] at hex
    split at hex
    · cases hex
    · rename_i i hi
      split at hex
      · cases hex
      · split at hex
        · cases hex
        · cases hex
          refine ⟨_, rfl, ?_⟩
          intro id hne
          show id < i
          rw [hid] at hi
          cases hl : (db.trees.docs c).lastKey with
          | none => exact absurd (OMap.lastKey_none hl id) hne
          | some l =>
            rw [hl] at hi
            have hle := (OMap.lastKey_some hl).2 id (by
              unfold getDoc at hne
              cases hg : (db.trees.docs c).get id with
              | none => exact absurd hg hne
              | some _ => rfl)
            have hlt : l < i := by
              simp only [keyNextId] at hi
              cases hdec : k.dec l with
              | ok v =>
                rw [hdec] at hi
                simp only [Option.bind_some] at hi
                cases hn : next v with
                | none => rw [hn] at hi; cases hi
                | some w =>
                  rw [hn] at hi
                  simp only [Option.bind_some] at hi
                  cases he : k.enc w with
                  | none => rw [he] at hi; cases hi
                  | some b =>
                    rw [he] at hi
                    simp only [Option.bind_some] at hi
                    split at hi
                    · cases hi
                      exact (hsort _ _ _ _ (hcan _ _ hdec) he).mpr (hinc _ _ hn)
                    · cases hi
              | err => rw [hdec] at hi; simp at hi
              | panic => rw [hdec] at hi; simp at hi
            rcases hle with rfl | hle
            · exact hlt
            · exact bytes_lt_trans hle hlt
  · rw [happ] at hok; cases hok

theorem uint_canonical (w : Nat) : Canonical (uintKey w) := by
  intro b v h
  simp only [uintKey, primDec] at h ⊢
  split at h
  · rename_i hl
    injection h with h
    subst h
    have hb := fromBE_lt b
    rw [hl] at hb
    rw [primEnc, BitVec.toNat_ofNat, Nat.mod_eq_of_lt (by rw [pow256]; exact hb)]
    subst hl
    rw [toBE_fromBE]
  · cases h

theorem uint_increasing (w : Nat) : Increasing (uintKey w) uintNext := by
  intro v u h
  simp only [uintNext] at h
  split at h
  · rename_i hlt
    cases h
    show v.toNat < _
    rw [BitVec.toNat_ofNat, Nat.mod_eq_of_lt hlt]; omega
  · cases h

/-- **C22** for `u8 … u128` primary keys: a pushed document gets an id larger than all others. -/
theorem C22_unsigned_auto_id_larger (s : Schema) (db : Db) (tid : Nat) (c : QName)
    (hk : c ∈ s.collections) (w : Nat)
    (hid : s.nextId c = keyNextId (uintKey w) (some (primFirst w)) uintNext) (x : Bytes)
    (rs : List OpResult) (hok : (applyToRoots s db tid [⟨c, .insert none x⟩]).1 = .ok rs) :
    ∃ h, rs = [.updated c h] ∧ getDoc db c h.id = none ∧ ∀ id, getDoc db c id ≠ none → id < h.id := by
  obtain ⟨h, rfl, h1⟩ := C22_auto_id_larger s db tid c hk (uintKey w) _ _ hid (uint_sorts w)
    (uint_canonical w) (uint_increasing w) x rs hok
  obtain ⟨h', hh, h2, -⟩ := C22_insert_is_fresh s db tid c hk none x _ hok
  cases hh
  exact ⟨h, rfl, h2, h1⟩

/-- **C22**, liveness for unsigned keys: as long as the largest id in use decodes and is not the
maximum of the type, a push into a collection without eager views succeeds. -/
theorem C22_unsigned_push_succeeds (s : Schema) (db : Db) (tid : Nat) (c : QName)
    (hk : c ∈ s.collections) (hn : NoEager s c) (w : Nat) (hw : 0 < w) (hw' : w ≤ 65535)
    (hid : s.nextId c = keyNextId (uintKey w) (some (primFirst w)) uintNext) (x : Bytes)
    (hlast : ∀ id, getDoc db c id ≠ none → id.length = w ∧ fromBE id + 1 < 2 ^ (8 * w)) :
    ∃ rs, (applyToRoots s db tid [⟨c, .insert none x⟩]).1 = .ok rs := by
  have hnext : ∃ i, s.nextId c (db.trees.docs c).lastKey = some i ∧ (db.trees.docs c).get i = none := by
    rw [hid]
    cases hl : (db.trees.docs c).lastKey with
    | none =>
      have h1 : 0 + 1 < 2 ^ (8 * w) := by
        have : 2 ^ 1 ≤ 2 ^ (8 * w) := Nat.pow_le_pow_right (by omega) (by omega)
        omega
      refine ⟨primEnc (BitVec.ofNat (8 * w) 1), ?_, OMap.lastKey_none hl _⟩
      have h1' : 1 < 2 ^ (8 * w) := by omega
      simp [keyNextId, primFirst, uintNext, h1', primEnc_length, hw', uintKey]
    | some l =>
      have hg := (OMap.lastKey_some hl).1
      have hne : getDoc db c l ≠ none := by
        unfold getDoc; intro h; rw [h] at hg; cases hg
      obtain ⟨hlen, hmax⟩ := hlast l hne
      have hb := fromBE_lt l
      rw [hlen] at hb
      have hdec : (uintKey w).dec l = .ok (BitVec.ofNat _ (fromBE l)) := by
        simp [uintKey, primDec, hlen]
      have htn : (BitVec.ofNat (8 * w) (fromBE l)).toNat = fromBE l := by
        rw [BitVec.toNat_ofNat, Nat.mod_eq_of_lt (by rw [pow256]; exact hb)]
      have hnx : uintNext (BitVec.ofNat (8 * w) (fromBE l)) =
          some (BitVec.ofNat (8 * w) (fromBE l + 1)) := by
        unfold uintNext
        rw [htn, if_pos hmax]
      refine ⟨primEnc (BitVec.ofNat (8 * w) (fromBE l + 1)), ?_, ?_⟩
      · have hdec' : primDec w l = .ok (BitVec.ofNat _ (fromBE l)) := hdec
        simp only [keyNextId, hdec', Option.bind_some, hnx]
        simp [primEnc_length, hw']
      · cases hg' : (db.trees.docs c).get (primEnc (BitVec.ofNat (8 * w) (fromBE l + 1))) with
        | none => rfl
        | some d =>
          exfalso
          have hle := (OMap.lastKey_some hl).2 _ (by rw [hg']; rfl)
          have hlt : l < primEnc (BitVec.ofNat (8 * w) (fromBE l + 1)) := by
            have := (uint_sorts w _ _ _ _ (uint_canonical w _ _ hdec) rfl).mpr
              (uint_increasing w _ _ hnx)
            exact this
          rcases hle with h | h
          · rw [h] at hlt; exact bytes_lt_irrefl _ hlt
          · exact bytes_lt_asymm hlt h
  obtain ⟨i, hi, hg⟩ := hnext
  rcases apply_single (s := s) (db := db) (tid := tid) (op := ⟨c, .insert none x⟩) hk with
    ⟨t', r, ch, hex, happ⟩ | ⟨e, hex, happ⟩
  · rw [happ]; exact ⟨_, rfl⟩
  · exfalso
    simp only [execOp, execInsert, Option.orElse, hi, hg] at hex
    split at hex
    · rename_i hst; exact (storeDoc_err hst).2 hn
    · cases hex

/-- A schema whose collection has a `u8` primary key. -/
def exUnsigned : Schema := { exSchema with nextId := fun _ => keyNextId (uintKey 1) (some (primFirst 1)) uintNext }

example : (serveAll exUnsigned .empty [.transaction 1 [⟨exC, .insert none [5]⟩, ⟨exC, .insert none [6]⟩]]).1 =
    [.done (.ok [.updated exC ⟨[1], ⟨0, [5]⟩⟩, .updated exC ⟨[2], ⟨0, [6]⟩⟩])] := rfl

/-! ## Signed keys: the property is violated -/

/-- A schema whose collection has an `i8` primary key. -/
def exSigned : Schema := { exSchema with nextId := fun _ => keyNextId (intKey 1) (some (primFirst 1)) intNext }

/-- **C22 (violated, finding F8).** With a signed primary key: once documents `-1` and `0` exist,
every push fails, although ids are free. -/
theorem C22_violated_signed_push_conflicts :
    let db := (serveAll exSigned .empty [.transaction 1
      [⟨exC, .insert (some (primEnc (w := 1) (BitVec.ofInt 8 (-1)))) [5]⟩,
       ⟨exC, .insert (some (primEnc (w := 1) (BitVec.ofInt 8 0))) [6]⟩]]).2
    (∀ tid x, applyToRoots exSigned db tid [⟨exC, .insert none x⟩] =
      (.error (.conflict exC ⟨[0], ⟨0, [6]⟩⟩), db)) ∧
    getDoc db exC (primEnc (w := 1) (BitVec.ofInt 8 1)) = none := by
  refine ⟨?_, rfl⟩
  intro tid x
  rfl

/-- **C22 (violated, finding F8).** With a signed primary key a pushed document may get a smaller
id than an existing one: after `-1` and `5`, the next push gets `0`. -/
theorem C22_violated_signed_not_larger :
    let db := (serveAll exSigned .empty [.transaction 1
      [⟨exC, .insert (some (primEnc (w := 1) (BitVec.ofInt 8 (-1)))) [5]⟩,
       ⟨exC, .insert (some (primEnc (w := 1) (BitVec.ofInt 8 5))) [6]⟩]]).2
    (applyToRoots exSigned db 2 [⟨exC, .insert none [1]⟩]).1 =
      .ok [.updated exC ⟨primEnc (w := 1) (BitVec.ofInt 8 0), ⟨0, [1]⟩⟩] ∧
    getDoc db exC (primEnc (w := 1) (BitVec.ofInt 8 5)) ≠ none := by
  refine ⟨rfl, ?_⟩
  intro h
  have : (getDoc (serveAll exSigned .empty [.transaction 1
      [⟨exC, .insert (some (primEnc (w := 1) (BitVec.ofInt 8 (-1)))) [5]⟩,
       ⟨exC, .insert (some (primEnc (w := 1) (BitVec.ofInt 8 5))) [6]⟩]]).2 exC
      (primEnc (w := 1) (BitVec.ofInt 8 5))).isSome = true := rfl
  rw [h] at this
  cases this

/-- **C22** for signed keys, the part that holds: while no existing id is negative, a pushed
document gets a value larger than all existing ones. -/
theorem C22_signed_nonnegative_partial (s : Schema) (db : Db) (tid : Nat) (c : QName)
    (hk : c ∈ s.collections) (w : Nat) (hw : 0 < w)
    (hid : s.nextId c = keyNextId (intKey w) (some (primFirst w)) intNext) (x : Bytes)
    (hpos : ∀ id, getDoc db c id ≠ none → 2 * fromBE id < 2 ^ (8 * w))
    (rs : List OpResult) (hok : (applyToRoots s db tid [⟨c, .insert none x⟩]).1 = .ok rs) :
    ∃ h, rs = [.updated c h] ∧ 2 * fromBE h.id < 2 ^ (8 * w) ∧
      ∀ id, getDoc db c id ≠ none → id < h.id := by
  -- on nonnegative values `intNext` and `uintNext` agree
  have hnext : ∀ v : BitVec (8 * w), 2 * v.toNat < 2 ^ (8 * w) → ∀ u, intNext v = some u →
      v.toNat < u.toNat ∧ 2 * u.toNat < 2 ^ (8 * w) := by
    intro v hv u hu
    have hi : v.toInt = v.toNat := by
      rw [BitVec.toInt_eq_toNat_cond, if_pos hv]
    simp only [intNext, hi] at hu
    split at hu
    · rename_i hlt
      cases hu
      have e : ((v.toNat : Int) + 1) = ((v.toNat + 1 : Nat) : Int) := by omega
      have hlt' : 2 * (v.toNat + 1) < 2 ^ (8 * w) := by
        have : ((2 * (v.toNat + 1) : Nat) : Int) < ((2 ^ (8 * w) : Nat) : Int) := by
          push_cast; rw [e] at hlt; push_cast at hlt; exact hlt
        exact Int.ofNat_lt.mp this
      have : (BitVec.ofInt (8 * w) ((v.toNat : Int) + 1)).toNat = v.toNat + 1 := by
        rw [e, BitVec.ofInt_natCast, BitVec.toNat_ofNat, Nat.mod_eq_of_lt (by omega)]
      rw [this]; omega
    · cases hu
  rcases apply_single (s := s) (db := db) (tid := tid) (op := ⟨c, .insert none x⟩) hk with
    ⟨t', r, ch, hex, happ⟩ | ⟨e, hex, happ⟩
  · rw [happ] at hok
    cases hok
    simp only [execOp, execInsert, Option.orElse] at hex
    split at hex
    · cases hex
    · rename_i i hi
      split at hex
      · cases hex
      · split at hex
        · cases hex
        · cases hex
          refine ⟨_, rfl, ?_⟩
          show 2 * fromBE i < _ ∧ ∀ id, _ → id < i
          rw [hid] at hi
          have key : ∀ v : BitVec (8 * w), 2 * v.toNat < 2 ^ (8 * w) →
              ((intNext v).bind fun v => ((intKey w).enc v).bind fun b =>
                if b.length ≤ 65535 then some b else none) = some i →
              2 * fromBE i < 2 ^ (8 * w) ∧ primEnc v < i := by
            intro v hv h
            cases hn : intNext v with
            | none => rw [hn] at h; cases h
            | some u =>
              rw [hn] at h
              simp only [Option.bind_some] at h
              split at h
              · cases h
                obtain ⟨h1, h2⟩ := hnext v hv u hn
                refine ⟨?_, (primEnc_lt_iff v u).mpr h1⟩
                rw [primEnc, fromBE_toBE (toNat_lt256 u)]; exact h2
              · cases h
          cases hl : (db.trees.docs c).lastKey with
          | none =>
            rw [hl] at hi
            refine ⟨(key (primFirst w) ?_ hi).1, ?_⟩
            · simp [primFirst]; exact Nat.two_pow_pos _
            · intro id hne; exact absurd (OMap.lastKey_none hl id) hne
          | some l =>
            rw [hl] at hi
            have hlk := OMap.lastKey_some hl
            have hne : getDoc db c l ≠ none := by
              unfold getDoc; intro h; rw [h] at hlk; cases hlk.1
            simp only [keyNextId] at hi
            cases hdec : primDec w l with
            | ok v =>
              rw [hdec] at hi
              simp only [Option.bind_some] at hi
              have hcan : primEnc v = l ∧ v.toNat = fromBE l := by
                simp only [primDec] at hdec
                split at hdec
                · rename_i hlen
                  injection hdec with hdec
                  subst hdec
                  have hb := fromBE_lt l
                  rw [hlen] at hb
                  have : (BitVec.ofNat (8 * w) (fromBE l)).toNat = fromBE l := by
                    rw [BitVec.toNat_ofNat, Nat.mod_eq_of_lt (by rw [pow256]; exact hb)]
                  refine ⟨?_, this⟩
                  rw [primEnc, this]
                  subst hlen
                  rw [toBE_fromBE]
                · cases hdec
              obtain ⟨k1, k2⟩ := key v (by rw [hcan.2]; exact hpos l hne) hi
              refine ⟨k1, ?_⟩
              rw [hcan.1] at k2
              intro id hid'
              rcases hlk.2 id (by
                unfold getDoc at hid'
                cases hg : (db.trees.docs c).get id with
                | none => exact absurd hg hid'
                | some _ => rfl) with h | h
              · rw [h]; exact k2
              · exact bytes_lt_trans h k2
            | err => rw [hdec] at hi; simp at hi
            | panic => rw [hdec] at hi; simp at hi
  · rw [happ] at hok; cases hok

end Bonsai.Store
