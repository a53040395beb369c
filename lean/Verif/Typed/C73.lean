import Verif.Typed.Tx
import Verif.Typed.C71
import Verif.Store.Atomic

/-!
# C73: typed transactions are all or nothing on the maps of the collections
-/
set_option linter.unusedSimpArgs false
set_option linter.unusedVariables false

namespace Bonsai.Typed
open Bonsai Bonsai.Names Bonsai.Query Bonsai.Store

section One
variable {s : Schema} {C : Coll} {first : Option C.key.T} {next : C.key.T → Option C.key.T}
variable {S : Bytes → Prop} {a : AbsStore}

/-- What has to be shown of an operation on the abstract store. -/
def OpGood (s : Schema) (C : Coll) (first : Option C.key.T) (next : C.key.T → Option C.key.T)
    (a : AbsStore) (op : TOp C) : Except Err (AbsStore × OpResult) → Prop
  | .ok (a', r) => WellTyped C a' ∧ TOpSpec s.digest C first next (mapOf C a) op (.ok r) (mapOf C a')
  | .error e => TOpSpec s.digest C first next (mapOf C a) op (.error e) (mapOf C a)

/-- From a statement about a stored document. -/
theorem opGood_doc (hl : Lawful s C first next) {op : TOp C} {o : Operation} {nid : Option Bytes}
    (hcol : o.collection = C.name) (x : C.Contents)
    (hupd : ∀ a' c h, specOp s.digest a nid o = .ok (a', .updated c h) → c = C.name)
    (h : match specOp s.digest a nid o with
      | .ok (a', .updated _ h) => ∃ k, documentId C.key k = .ok h.id ∧ WellTyped C a' ∧
          DocSpec s.digest C first next (mapOf C a) op (.ok ⟨⟨k, h.revision⟩, x⟩) (mapOf C a')
      | .ok _ => False
      | .error e => DocSpec s.digest C first next (mapOf C a) op (.error (.db e)) (mapOf C a)) :
    OpGood s C first next a op (specOp s.digest a nid o) := by
  cases hsp : specOp s.digest a nid o with
  | error e => rw [hsp] at h; exact .notStored h
  | ok p =>
    obtain ⟨a', r⟩ := p
    rw [hsp] at h
    cases r with
    | updated c hd =>
      have hc := hupd a' c hd hsp
      subst hc
      obtain ⟨k, hk, ht, hs⟩ := h
      refine ⟨ht, ?_⟩
      have := TOpSpec.stored hs (documentId_ok.mp hk).1
      exact this
    | _ => exact h.elim

theorem specOp_updated {dg : Bytes → Bytes} {nid : Option Bytes} {o : Operation} {a' c h}
    (hs : specOp dg a nid o = .ok (a', .updated c h)) : c = o.collection := by
  have wr : ∀ {i d x}, absWrite dg a o.collection i d x = .ok (a', .updated c h) → c = o.collection := by
    intro i d x hw
    simp only [absWrite] at hw
    split at hw
    · cases hw; rfl
    · split at hw
      · cases hw; rfl
      · cases hw
  simp only [specOp] at hs
  cases hcmd : o.command with
  | insert oid x =>
    rw [hcmd] at hs
    simp only at hs
    split at hs
    · cases hs
    · split at hs
      · cases hs
      · cases hs; rfl
  | update hd x =>
    rw [hcmd] at hs
    simp only at hs
    split at hs
    · cases hs
    · split at hs
      · exact wr hs
      · cases hs
  | overwrite i x =>
    rw [hcmd] at hs
    simp only at hs
    split at hs
    · cases hs; rfl
    · exact wr hs
  | delete hd =>
    rw [hcmd] at hs
    simp only at hs
    split at hs
    · cases hs
    · split at hs
      · cases hs
      · cases hs
  | check i rev =>
    rw [hcmd] at hs
    simp only at hs
    split at hs
    · cases hs
    · split at hs
      · cases hs
      · split at hs
        · cases hs
        · cases hs

theorem autoInsert_spec (hl : Lawful s C first next) (ht : WellTyped C a) {x b last}
    (hx : C.serialize x = some b) (hla : IsLargest a C.name last) :
    match specOp s.digest a (s.nextId C.name last) ⟨C.name, .insert none b⟩ with
    | .ok (a', .updated _ h) => ∃ k, documentId C.key k = .ok h.id ∧ WellTyped C a' ∧
        AutoInsertSpec s.digest C first next (mapOf C a) x (.ok ⟨⟨k, h.revision⟩, x⟩) (mapOf C a')
    | .ok _ => False
    | .error e => AutoInsertSpec s.digest C first next (mapOf C a) x (.error (.db e)) (mapOf C a) := by
  have hnext := nextId_spec hl ht hla
  cases hid : s.nextId C.name last with
  | none =>
    rw [hid] at hnext
    simp only at hnext
    rw [specOp_push_none hl]
    exact .noKey hnext
  | some id =>
    rw [hid] at hnext
    obtain ⟨k, hk, hauto⟩ := hnext
    have := insert_spec (s := s) (nid := some id) (oid := none) hl ht hk hx rfl
    revert this
    cases specOp s.digest a (some id) ⟨C.name, .insert none b⟩ with
    | error e => exact fun h => .auto hauto h
    | ok p =>
      obtain ⟨a', r⟩ := p
      cases r with
      | updated c h =>
        rintro ⟨h1, h2, h3⟩
        exact ⟨k, by rw [h1]; exact hk, h2, .auto hauto h3⟩
      | _ => exact fun h => h

/-- Every operation that can be built does what it says. -/
theorem op_refines (hl : Lawful s C first next) (ht : WellTyped C a) {op : TOp C} {o : Operation} {last}
    (hb : op.build = .ok o) (hla : IsLargest a C.name last) :
    OpGood s C first next a op (specOp s.digest a (s.nextId C.name last) o) := by
  cases op with
  | push x =>
    have hcol := pushOp_collection hb
    refine opGood_doc hl hcol x (fun a' c h hs => by rw [specOp_updated hs, hcol]) ?_
    have := (push_spec hl ht hb hla).2.2
    revert this
    cases specOp s.digest a (s.nextId C.name last) o with
    | error e => exact fun h => .push h
    | ok p =>
      obtain ⟨a', r⟩ := p
      cases r with
      | updated c h => rintro ⟨k, h1, h2, h3⟩; exact ⟨k, h1, h2, .push h3⟩
      | _ => exact fun h => h
  | insert k x =>
    simp only [TOp.build, insertOp] at hb
    cases k with
    | none =>
      simp only [optionId] at hb
      cases hs : ser C x with
      | error e => rw [hs] at hb; cases hb
      | ok b =>
        rw [hs] at hb
        cases hb
        refine opGood_doc hl rfl x (fun a' c h hs => specOp_updated hs) ?_
        have := autoInsert_spec hl ht (ser_ok.mp hs) hla
        revert this
        cases specOp s.digest a (s.nextId C.name last) ⟨C.name, .insert none b⟩ with
        | error e => exact fun h => .insertAuto h
        | ok p =>
          obtain ⟨a', r⟩ := p
          cases r with
          | updated c h => rintro ⟨k, h1, h2, h3⟩; exact ⟨k, h1, h2, .insertAuto h3⟩
          | _ => exact fun h => h
    | some k =>
      simp only [optionId] at hb
      cases hk : documentId C.key k with
      | error e => rw [hk] at hb; cases hb
      | ok id =>
        rw [hk] at hb
        simp only at hb
        cases hs : ser C x with
        | error e => rw [hs] at hb; cases hb
        | ok b =>
          rw [hs] at hb
          cases hb
          refine opGood_doc hl rfl x (fun a' c h hs => specOp_updated hs) ?_
          have := insert_spec (s := s) (nid := s.nextId C.name last) (oid := some id) hl ht hk
            (ser_ok.mp hs) rfl
          revert this
          cases specOp s.digest a (s.nextId C.name last) ⟨C.name, .insert (some id) b⟩ with
          | error e => exact fun h => .insert h
          | ok p =>
            obtain ⟨a', r⟩ := p
            cases r with
            | updated c h => rintro ⟨h1, h2, h3⟩; exact ⟨k, by rw [h1]; exact hk, h2, .insert h3⟩
            | _ => exact fun h => h
  | overwrite k x =>
    simp only [TOp.build, overwriteOp] at hb
    cases hs : ser C x with
    | error e => rw [hs] at hb; cases hb
    | ok b =>
      rw [hs] at hb
      simp only at hb
      cases hk : documentId C.key k with
      | error e => rw [hk] at hb; cases hb
      | ok id =>
        rw [hk] at hb
        cases hb
        have hs' := ser_ok.mp hs
        refine opGood_doc hl rfl x (fun a' c h hs => specOp_updated hs) ?_
        simp only [specOp]
        cases hd : a C.name id with
        | none =>
          simp only [headerOf]
          have hn := (mapOf_none hl ht hk).mpr hd
          exact ⟨k, hk, wellTyped_put ht hk hs',
            .overwriteNew hn (.ok hn ⟨rfl, rfl, b, hs', rfl⟩ (changed_put hl hk hs'))⟩
        | some d =>
          obtain ⟨n, b'⟩ := d
          obtain ⟨j, y, hj, hy⟩ := ht id n b' hd
          have := documentId_inj hl.key hj hk
          subst this
          have hm := (mapOf_some hl ht hk).mpr ⟨b', hd, hy⟩
          have hwr := write_refines (s := s) (n := n) hl ht hk hy hs'
          simp only
          revert hwr
          cases absWrite s.digest a C.name id (n, b') b with
          | error e => exact fun h => .overwrite hm h
          | ok p =>
            obtain ⟨a', r⟩ := p
            cases r with
            | updated cn h =>
              rintro ⟨h1, h2, h3⟩
              exact ⟨j, by rw [h1]; exact hk, h2, .overwrite hm h3⟩
            | _ => exact fun h => h
  | update hd x =>
    simp only [TOp.build, updateOp, CHeader.toHeader] at hb
    cases hs : ser C x with
    | error e => rw [hs] at hb; cases hb
    | ok b =>
      rw [hs] at hb
      simp only at hb
      cases hk : documentId C.key hd.id with
      | error e => rw [hk] at hb; cases hb
      | ok id =>
        rw [hk] at hb
        cases hb
        have hs' := ser_ok.mp hs
        refine opGood_doc hl rfl x (fun a' c h hs => specOp_updated hs) ?_
        simp only [specOp]
        cases hd' : a C.name id with
        | none => exact .updateMissing ((mapOf_none hl ht hk).mpr hd') (documentId_ok.mp hk).1
        | some dd =>
          obtain ⟨n, b'⟩ := dd
          obtain ⟨j, y, hj, hy⟩ := ht id n b' hd'
          have := documentId_inj hl.key hj hk
          subst this
          have hm := (mapOf_some hl ht hk).mpr ⟨b', hd', hy⟩
          simp only
          by_cases hrev : (⟨id, hd.revision⟩ : Header) = headerOf s.digest id (n, b')
          · simp only [hrev, if_true]
            have hrv : IsRev s.digest C n y hd.revision := ⟨b', hy, by
              have := congrArg Header.revision hrev
              exact this⟩
            have hwr := write_refines (s := s) (n := n) hl ht hk hy hs'
            revert hwr
            cases absWrite s.digest a C.name id (n, b') b with
            | error e => exact fun h => .update hm hrv h
            | ok p =>
              obtain ⟨a', r⟩ := p
              cases r with
              | updated cn h =>
                rintro ⟨h1, h2, h3⟩
                exact ⟨hd.id, by rw [h1]; exact hk, h2, .update hm hrv h3⟩
              | _ => exact fun h => h
          · simp only [hrev, if_false]
            refine .updateStale hm (documentId_ok.mp hk).1 ⟨b', hy, rfl⟩ ?_
            intro he
            exact hrev (by rw [he]; rfl)
  | delete h =>
    simp only [TOp.build, deleteOp, CHeader.toHeader] at hb
    cases hk : documentId C.key h.id with
    | error e => rw [hk] at hb; cases hb
    | ok id =>
      rw [hk] at hb
      cases hb
      simp only [specOp]
      cases hd : a C.name id with
      | none => exact .deleteMissing ((mapOf_none hl ht hk).mpr hd) (documentId_ok.mp hk).1
      | some dd =>
        obtain ⟨n, b'⟩ := dd
        obtain ⟨j, y, hj, hy⟩ := ht id n b' hd
        have := documentId_inj hl.key hj hk
        subst this
        have hm := (mapOf_some hl ht hk).mpr ⟨b', hd, hy⟩
        simp only
        by_cases hrev : (⟨id, h.revision⟩ : Header) = headerOf s.digest id (n, b')
        · simp only [hrev, if_true]
          exact ⟨wellTyped_remove ht, .delete hm ⟨b', hy, congrArg Header.revision hrev⟩
            (documentId_ok.mp hk).1 (changed_remove hl hk)⟩
        · simp only [hrev, if_false]
          refine .deleteStale hm (documentId_ok.mp hk).1 ⟨b', hy, rfl⟩ ?_
          intro he
          exact hrev (by rw [he]; rfl)
  | checkExists k =>
    simp only [TOp.build, checkExistsOp] at hb
    cases hk : documentId C.key k with
    | error e => rw [hk] at hb; cases hb
    | ok id =>
      rw [hk] at hb
      cases hb
      simp only [specOp]
      cases hd : a C.name id with
      | none => exact .existsMissing ((mapOf_none hl ht hk).mpr hd) (documentId_ok.mp hk).1
      | some dd =>
        obtain ⟨n, b'⟩ := dd
        obtain ⟨j, y, hj, hy⟩ := ht id n b' hd
        have := documentId_inj hl.key hj hk
        subst this
        exact ⟨ht, .exists' ((mapOf_some hl ht hk).mpr ⟨b', hd, hy⟩)⟩
  | checkCurrent h =>
    simp only [TOp.build, checkCurrentOp, CHeader.toHeader] at hb
    cases hk : documentId C.key h.id with
    | error e => rw [hk] at hb; cases hb
    | ok id =>
      rw [hk] at hb
      cases hb
      simp only [specOp]
      cases hd : a C.name id with
      | none => exact .currentMissing ((mapOf_none hl ht hk).mpr hd) (documentId_ok.mp hk).1
      | some dd =>
        obtain ⟨n, b'⟩ := dd
        obtain ⟨j, y, hj, hy⟩ := ht id n b' hd
        have := documentId_inj hl.key hj hk
        subst this
        have hm := (mapOf_some hl ht hk).mpr ⟨b', hd, hy⟩
        simp only
        by_cases hrev : (headerOf s.digest id (n, b')).revision = h.revision
        · simp only [hrev, if_true]
          exact ⟨ht, .current hm ⟨b', hy, hrev.symm⟩⟩
        · simp only [hrev, if_false]
          exact .currentStale hm (documentId_ok.mp hk).1 ⟨b', hy, rfl⟩ (Ne.symm hrev)

theorem build_collection {op : TOp C} {o : Operation} (hb : op.build = .ok o) : o.collection = C.name := by
  cases op with
  | push x => exact pushOp_collection hb
  | insert k x =>
    simp only [TOp.build, insertOp] at hb
    split at hb
    · cases hb
    · split at hb <;> cases hb; rfl
  | overwrite k x =>
    simp only [TOp.build, overwriteOp] at hb
    split at hb
    · cases hb
    · split at hb <;> cases hb; rfl
  | update h x =>
    simp only [TOp.build, updateOp] at hb
    split at hb
    · cases hb
    · split at hb <;> cases hb; rfl
  | delete h => simp only [TOp.build, deleteOp] at hb; split at hb <;> cases hb; rfl
  | checkExists k => simp only [TOp.build, checkExistsOp] at hb; split at hb <;> cases hb; rfl
  | checkCurrent h => simp only [TOp.build, checkCurrentOp] at hb; split at hb <;> cases hb; rfl

theorem build_contents {op : TOp C} {o : Operation} (hb : op.build = .ok o) (hin : OpIn S op) {c}
    (hc : o.command.contents = some c) : S c := by
  cases op with
  | push x => exact hin x (by simp) c (pushOp_contents hb hc)
  | insert k x =>
    simp only [TOp.build, insertOp] at hb
    split at hb
    · cases hb
    · split at hb
      · cases hb
      · rename_i b hs
        cases hb
        simp [Command.contents] at hc
        subst hc
        exact hin x (by simp) b (ser_ok.mp hs)
  | overwrite k x =>
    simp only [TOp.build, overwriteOp] at hb
    split at hb
    · cases hb
    · rename_i b hs
      split at hb
      · cases hb
      · cases hb
        simp [Command.contents] at hc
        subst hc
        exact hin x (by simp) b (ser_ok.mp hs)
  | update h x =>
    simp only [TOp.build, updateOp] at hb
    split at hb
    · cases hb
    · rename_i b hs
      split at hb
      · cases hb
      · cases hb
        simp [Command.contents] at hc
        subst hc
        exact hin x (by simp) b (ser_ok.mp hs)
  | delete h => simp only [TOp.build, deleteOp] at hb; split at hb <;> cases hb; cases hc
  | checkExists k => simp only [TOp.build, checkExistsOp] at hb; split at hb <;> cases hb; cases hc
  | checkCurrent h => simp only [TOp.build, checkCurrentOp] at hb; split at hb <;> cases hb; cases hc

theorem toHeader_err {h : CHeader C.key} {e} (he : h.toHeader = .error e) : BadKey C.key h.id e := by
  unfold CHeader.toHeader at he
  cases hk : documentId C.key h.id with
  | error e' => rw [hk] at he; cases he; exact documentId_err hk
  | ok id => rw [hk] at he; cases he

theorem build_err {op : TOp C} {e} (hb : op.build = .error e) : BadOp op e := by
  cases op with
  | push x =>
    rcases pushOp_err hb with h | ⟨k, hn, h⟩
    · exact .contents (x := x) (by simp) h
    · exact .key (k := k) (by simp [hn]) h
  | insert k x =>
    simp only [TOp.build, insertOp] at hb
    split at hb
    · rename_i e' hs
      cases hb
      cases k with
      | none => cases hs
      | some k =>
        simp only [optionId] at hs
        cases hk : documentId C.key k with
        | error e2 => rw [hk] at hs; cases hs; exact .key (k := k) (by simp) (documentId_err hk)
        | ok id => rw [hk] at hs; cases hs
    · split at hb
      · rename_i hs; cases hb; exact .contents (x := x) (by simp) (ser_err hs)
      · cases hb
  | overwrite k x =>
    simp only [TOp.build, overwriteOp] at hb
    split at hb
    · rename_i hs; cases hb; exact .contents (x := x) (by simp) (ser_err hs)
    · split at hb
      · rename_i hk; cases hb; exact .key (k := k) (by simp) (documentId_err hk)
      · cases hb
  | update h x =>
    simp only [TOp.build, updateOp] at hb
    split at hb
    · rename_i hs; cases hb; exact .contents (x := x) (by simp) (ser_err hs)
    · split at hb
      · rename_i hk; cases hb; exact .key (k := h.id) (by simp) (toHeader_err hk)
      · cases hb
  | delete h =>
    simp only [TOp.build, deleteOp] at hb
    split at hb
    · rename_i hk; cases hb; exact .key (k := h.id) (by simp) (toHeader_err hk)
    · cases hb
  | checkExists k =>
    simp only [TOp.build, checkExistsOp] at hb
    split at hb
    · rename_i hk; cases hb; exact .key (k := k) (by simp) (documentId_err hk)
    · cases hb
  | checkCurrent h =>
    simp only [TOp.build, checkCurrentOp] at hb
    split at hb
    · rename_i hk; cases hb; exact .key (k := h.id) (by simp) (toHeader_err hk)
    · cases hb

end One

section Many
variable {ι : Type} {s : Schema} {Cs : ι → Coll} {K : KeyOrders Cs} {S : Bytes → Prop} {a : AbsStore}

/-- The maps of all collections in a store. -/
def mapsOf (Cs : ι → Coll) (a : AbsStore) : Maps Cs := fun i => mapOf (Cs i) a

/-- An operation on collection `i` leaves the others. -/
theorem op_changedAt (hl : LawfulFamily s Cs K) {i : ι} {op : TOp (Cs i)} {o : Operation} {last a' r}
    (hb : op.build = .ok o) (hla : IsLargest a o.collection last)
    (hop : specOp s.digest a (s.nextId o.collection last) o = .ok (a', r))
    (ht : ∀ i, WellTyped (Cs i) a) (ht' : WellTyped (Cs i) a') :
    ChangedAt (mapsOf Cs a) i (mapOf (Cs i) a') (mapsOf Cs a') ∧ ∀ j, WellTyped (Cs j) a' := by
  have hrun : SpecRun s a [o] (.ok (a', [r])) := .next_ok hla hop (.nil _)
  have fr : ∀ j, j ≠ i → ∀ id, a' (Cs j).name id = a (Cs j).name id := by
    intro j hj id
    refine specRun_frame hrun ?_ id
    intro op' ho
    simp only [List.mem_singleton] at ho
    subst ho
    rw [build_collection hb]
    intro he
    exact hj (hl.distinct i j he).symm
  refine ⟨⟨rfl, fun j hj => mapOf_congr (fr j hj)⟩, ?_⟩
  intro j
  by_cases hj : j = i
  · subst hj; exact ht'
  · intro id n b h
    rw [fr j hj] at h
    exact ht j id n b h

theorem run_ok (hl : LawfulFamily s Cs K) : ∀ {ops : List (AnyOp Cs)} {os : List Operation} {a p},
    (∀ i, WellTyped (Cs i) a) → collect (fun o : AnyOp Cs => o.2.build) ops = .ok os →
    SpecRun s a os (.ok p) →
    (∀ i, WellTyped (Cs i) p.1) ∧ TxSpec s.digest Cs K (mapsOf Cs a) ops (.ok p.2) (mapsOf Cs p.1) := by
  intro ops
  induction ops with
  | nil =>
    intro os a p ht hc hr
    cases hc
    generalize hq : Except.ok p = q at hr
    cases hr
    cases hq
    exact ⟨ht, .nil _⟩
  | cons op ops ih =>
    intro os a p ht hc hr
    obtain ⟨i, op⟩ := op
    simp only [collect] at hc
    cases ho : op.build with
    | error e => rw [ho] at hc; cases hc
    | ok o =>
      rw [ho] at hc
      simp only at hc
      cases hcs : collect (fun o : AnyOp Cs => o.2.build) ops with
      | error e => rw [hcs] at hc; cases hc
      | ok os' =>
        rw [hcs] at hc
        cases hc
        generalize hq : Except.ok p = q at hr
        cases hr with
        | fail _ _ => cases hq
        | next_fail _ _ _ => cases hq
        | next_ok hla hop hrest =>
          cases hq
          rename_i a1 r last a2 rs
          have hcol := build_collection ho
          have hgood := op_refines (hl.lawful i) (ht i) ho (by rw [← hcol]; exact hla)
          rw [← hcol, hop] at hgood
          obtain ⟨g1, g2⟩ := hgood
          obtain ⟨g3, g4⟩ := op_changedAt hl ho hla hop ht g1
          obtain ⟨h1, h2⟩ := ih g4 hcs hrest
          exact ⟨h1, .cons g2 g3 h2⟩

theorem run_err (hl : LawfulFamily s Cs K) : ∀ {ops : List (AnyOp Cs)} {os : List Operation} {a e},
    (∀ i, WellTyped (Cs i) a) → collect (fun o : AnyOp Cs => o.2.build) ops = .ok os →
    SpecRun s a os (.error e) →
    ∃ M', TxSpec s.digest Cs K (mapsOf Cs a) ops (.error e) M' := by
  intro ops
  induction ops with
  | nil => intro os a p ht hc hr; cases hc; nomatch hr
  | cons op ops ih =>
    intro os a e ht hc hr
    obtain ⟨i, op⟩ := op
    simp only [collect] at hc
    cases ho : op.build with
    | error e => rw [ho] at hc; cases hc
    | ok o =>
      rw [ho] at hc
      simp only at hc
      cases hcs : collect (fun o : AnyOp Cs => o.2.build) ops with
      | error e => rw [hcs] at hc; cases hc
      | ok os' =>
        rw [hcs] at hc
        cases hc
        have hcol := build_collection ho
        generalize hq : Except.error e = q at hr
        cases hr with
        | fail hla hop =>
          cases hq
          have hgood := op_refines (hl.lawful i) (ht i) ho (by rw [← hcol]; exact hla)
          rw [← hcol, hop] at hgood
          exact ⟨_, .fail hgood⟩
        | next_ok _ _ _ => cases hq
        | next_fail hla hop hrest =>
          cases hq
          have hgood := op_refines (hl.lawful i) (ht i) ho (by rw [← hcol]; exact hla)
          rw [← hcol, hop] at hgood
          obtain ⟨g1, g2⟩ := hgood
          obtain ⟨g3, g4⟩ := op_changedAt hl ho hla hop ht g1
          obtain ⟨M', hM⟩ := ih g4 hcs hrest
          exact ⟨M', .later g2 g3 hM⟩

/-- One transaction. -/
theorem applyTx_refines (hS : CollisionFree s.digest S) (hl : LawfulFamily s Cs K) {db : Db}
    (hr : Reachable s S db) (ht : ∀ i, WellTyped (Cs i) db.trees.abs) (tid : Nat)
    (ops : List (AnyOp Cs)) (hin : ∀ o ∈ ops, OpIn S o.2) :
    Reachable s S (applyTx s Cs db tid ops).2 ∧
    (∀ i, WellTyped (Cs i) (applyTx s Cs db tid ops).2.trees.abs) ∧
    AtomicSpec s Cs K (mapsOf Cs db.trees.abs) ops (applyTx s Cs db tid ops).1
      (mapsOf Cs (applyTx s Cs db tid ops).2.trees.abs) ∧
    ∀ e, (applyTx s Cs db tid ops).1 = .error e → (applyTx s Cs db tid ops).2 = db := by
  unfold applyTx
  cases hc : collect (fun o : AnyOp Cs => o.2.build) ops with
  | error e =>
    obtain ⟨⟨i, op⟩, hm, he⟩ := collect_err hc
    exact ⟨hr, ht, .bad hm (build_err he), fun _ _ => rfl⟩
  | ok os =>
    simp only
    have hw : Writes S os := by
      intro o ho b hb
      obtain ⟨⟨i, op⟩, hm, hbo⟩ := mem_collect hc ho
      exact build_contents hbo (hin _ hm) hb
    have hr' : Reachable s S (applyToRoots s db tid os).2 := .transaction tid _ hr hw
    have h2 := (serve_refines (q := .transaction tid os) hS (hr.wf hS) (by
      intro _ _ e; cases e; exact hw)).2
    simp only [serve] at h2
    cases hap : applyToRoots s db tid os with
    | mk r db' =>
      rw [hap] at hr' h2
      cases r with
      | ok rs =>
        simp only
        have hrun : SpecRun s db.trees.abs os (.ok (db'.trees.abs, rs)) := by
          simp only at h2
          generalize hq : Answer.done (.ok rs) = an at h2
          generalize db'.trees.abs = z' at h2 ⊢
          generalize db.trees.abs = z at h2 ⊢
          cases h2 with
          | ok _ h => cases hq; exact h
          | fail _ h => cases hq
          | unknown _ => cases hq
          | rejected _ _ => cases hq
          | large _ => cases hq
        obtain ⟨g1, g2⟩ := run_ok hl ht hc hrun
        exact ⟨hr', g1, .all g2, fun _ he => by cases he⟩
      | error e =>
        have := apply_error hap
        subst this
        simp only
        refine ⟨hr, ht, ?_, fun _ _ => by trivial⟩
        have hcases : SpecRun s db'.trees.abs os (.error e) ∨
            (∃ o ∈ os, o.collection ∉ s.collections) ∨
            (ViewErr e ∧ ∃ o ∈ os, ∃ v ∈ s.views, v.name.collection = o.collection ∧
              v.policy.isEager = true) ∨ (e = .tooLarge ∧ TooManyCollections os) := by
          simp only at h2
          generalize hq : Answer.done (.error e) = an at h2
          generalize hz : db'.trees.abs = z at h2 ⊢
          cases h2 with
          | ok _ h => cases hq
          | fail _ h => cases hq; exact .inl h
          | unknown h => exact .inr (.inl h)
          | rejected he h => cases hq; exact .inr (.inr (.inl ⟨he, h⟩))
          | large h => cases hq; exact .inr (.inr (.inr ⟨rfl, h⟩))
        have hmem : ∀ o ∈ os, ∃ x ∈ ops, o.collection = (Cs x.1).name := by
          intro o ho
          obtain ⟨x, hm, hbo⟩ := mem_collect hc ho
          exact ⟨x, hm, build_collection hbo⟩
        rcases hcases with h | ⟨o, ho, h⟩ | ⟨hv, o, ho, v, h1, h2, h3⟩ | ⟨rfl, l, h1, h2, h3⟩
        · obtain ⟨M', hM⟩ := run_err hl ht hc h
          exact .refused hM
        · obtain ⟨x, -, hx⟩ := hmem o ho
          rw [hx] at h
          exact absurd (hl.lawful x.1).known h
        · obtain ⟨⟨i, op⟩, hm, hx⟩ := hmem o ho
          exact .rejected hm (.mk hv ⟨v, h1, h2.trans hx, h3⟩)
        · refine .tooMany ⟨l, h1, by omega, ?_⟩
          intro n hn
          obtain ⟨o, ho, hoc⟩ := h3 n hn
          obtain ⟨x, hm, hx⟩ := hmem o ho
          exact ⟨x, hm, by rw [← hoc, hx]⟩

theorem runTxs_refines (hS : CollisionFree s.digest S) (hl : LawfulFamily s Cs K) :
    ∀ (ts : List (Nat × List (AnyOp Cs))) (db : Db), Reachable s S db →
    (∀ i, WellTyped (Cs i) db.trees.abs) → (∀ t ∈ ts, ∀ o ∈ t.2, OpIn S o.2) →
    Reachable s S (runTxs s Cs db ts).2 ∧
    (∀ i, WellTyped (Cs i) (runTxs s Cs db ts).2.trees.abs) ∧
    AtomicSpecAll s Cs K (mapsOf Cs db.trees.abs) ts (runTxs s Cs db ts).1
      (mapsOf Cs (runTxs s Cs db ts).2.trees.abs) := by
  intro ts
  induction ts with
  | nil => intro db hr ht _; exact ⟨hr, ht, .nil _⟩
  | cons t ts ih =>
    intro db hr ht hin
    obtain ⟨tid, ops⟩ := t
    obtain ⟨h1, h2, h3, -⟩ := applyTx_refines hS hl hr ht tid ops (hin _ List.mem_cons_self)
    obtain ⟨g1, g2, g3⟩ := ih _ h1 h2 fun t h => hin t (List.mem_cons_of_mem _ h)
    exact ⟨g1, g2, .cons h3 g3⟩

/-- **C73.** Every history of transactions made of typed operations on any number of collections is
answered as by the maps of the collections, each transaction at once: all of its operations in order,
each seeing what the ones before it did, or, with an error, none of them.  Afterwards `get` shows the
final maps. -/
theorem C73_transactions (s : Schema) (Cs : ι → Coll) (K : KeyOrders Cs) (hl : LawfulFamily s Cs K)
    (S : Bytes → Prop) (hS : CollisionFree s.digest S) (ts : List (Nat × List (AnyOp Cs)))
    (hin : ∀ t ∈ ts, ∀ o ∈ t.2, OpIn S o.2) :
    ∃ final : Maps Cs, AtomicSpecAll s Cs K (fun _ _ => none) ts (runTxs s Cs .empty ts).1 final ∧
      (∀ i k n x, final i k = some (n, x) → ∃ d, get (Cs i) (runTxs s Cs .empty ts).2 k = .ok (some d) ∧
        IsDoc s.digest (Cs i) k n x d) ∧
      (∀ i k, final i k = none → (∃ e, BadKey (Cs i).key k e) ∨
        get (Cs i) (runTxs s Cs .empty ts).2 k = .ok none) := by
  obtain ⟨h1, h2, h3⟩ := runTxs_refines hS hl ts .empty .empty (fun i => wellTyped_empty) hin
  have he : mapsOf Cs Db.empty.trees.abs = fun _ _ => none := by
    funext i k
    simp only [mapsOf, mapOf]
    split <;> rfl
  rw [he] at h3
  refine ⟨_, h3, ?_, ?_⟩
  · intro i k n x hk
    have hli := hl.lawful i
    simp only [mapsOf] at hk
    obtain ⟨id, hid⟩ := mapOf_documentId hk
    obtain ⟨b, ha, hb⟩ := (mapOf_some hli (h2 i) hid).mp hk
    obtain ⟨id', d, g1, g2, g3, -⟩ := stored_of_shown hli (h1.wf hS) (h2 i)
      (cd := ⟨⟨k, ⟨n, s.digest b⟩⟩, x⟩) ⟨n, hk, b, hb, rfl⟩
    refine ⟨⟨⟨k, ⟨n, s.digest b⟩⟩, x⟩, ?_, rfl, rfl, b, hb, rfl⟩
    simp only at g1
    simp only [get, g1, g2, g3]
  · intro i k hk
    have hli := hl.lawful i
    cases hd : documentId (Cs i).key k with
    | error e => exact .inl ⟨e, documentId_err hd⟩
    | ok id =>
      right
      have := (mapOf_none hli (h2 i) hd).mp hk
      unfold get
      simp only [hd]
      cases hg : getDoc (runTxs s Cs .empty ts).2 (Cs i).name id with
      | none => rfl
      | some d => rw [abs_eq, abs_of_get hg] at this; cases this

/-- **C73.** A relation between documents, of one or several collections, that every transaction of a
history preserves when it is done as a whole, holds after every transaction, whichever of them fail. -/
theorem C73_invariant (s : Schema) (Cs : ι → Coll) (K : KeyOrders Cs) (hl : LawfulFamily s Cs K)
    (S : Bytes → Prop) (hS : CollisionFree s.digest S) (ts : List (Nat × List (AnyOp Cs)))
    (hin : ∀ t ∈ ts, ∀ o ∈ t.2, OpIn S o.2) (I : Maps Cs → Prop) (h0 : I fun _ _ => none)
    (hI : ∀ t ∈ ts, ∀ M rs M', I M → TxSpec s.digest Cs K M t.2 (.ok rs) M' → I M') :
    ∃ final : Maps Cs, I final ∧
      (∀ i k n x, final i k = some (n, x) → ∃ d, get (Cs i) (runTxs s Cs .empty ts).2 k = .ok (some d) ∧
        IsDoc s.digest (Cs i) k n x d) ∧
      (∀ i k, final i k = none → (∃ e, BadKey (Cs i).key k e) ∨
        get (Cs i) (runTxs s Cs .empty ts).2 k = .ok none) := by
  obtain ⟨final, h1, h2⟩ := C73_transactions s Cs K hl S hS ts hin
  refine ⟨final, ?_, h2⟩
  clear h2 hin
  revert h0
  generalize (fun i k => none : Maps Cs) = M at h1
  generalize (runTxs s Cs .empty ts).1 = rs at h1
  induction h1 with
  | nil M => exact id
  | cons h _ ih =>
    intro hM
    refine ih (fun t ht => hI t (List.mem_cons_of_mem _ ht)) ?_
    cases h with
    | all h => exact hI _ List.mem_cons_self _ _ _ hM h
    | refused _ => exact hM
    | bad _ _ => exact hM
    | rejected _ _ => exact hM
    | tooMany _ => exact hM

/-- **C73.** Checks: a transaction with a check for a document that is not current (or, without a
revision, not there) at that point does nothing, whatever else it contains. -/
theorem C73_checks (s : Schema) (Cs : ι → Coll) (K : KeyOrders Cs) (M M' : Maps Cs)
    (pre post : List (AnyOp Cs)) (i : ι) (rs : List OpResult) :
    (∀ k, TxSpec s.digest Cs K M (pre ++ ⟨i, .checkExists k⟩ :: post) (.ok rs) M' →
      ∃ M1 rs1 v, TxSpec s.digest Cs K M pre (.ok rs1) M1 ∧ M1 i k = some v) ∧
    (∀ h, TxSpec s.digest Cs K M (pre ++ ⟨i, .checkCurrent h⟩ :: post) (.ok rs) M' →
      ∃ M1 rs1 n y, TxSpec s.digest Cs K M pre (.ok rs1) M1 ∧ M1 i h.id = some (n, y) ∧
        IsRev s.digest (Cs i) n y h.revision) := by
  constructor
  · intro k
    induction pre generalizing M rs with
    | nil =>
      intro h
      generalize hq : (Except.ok rs : Except Err _) = q at h
      cases h with
      | cons h _ _ =>
        refine ⟨M, [], ?_⟩
        generalize hq : (Except.ok _ : Except Err OpResult) = q at h
        cases h with
        | stored h _ => cases h
        | notStored h => cases hq
        | exists' hs => exact ⟨_, .nil _, hs⟩
        | existsMissing _ _ => cases hq
      | fail _ => cases hq
      | later _ _ _ => cases hq
    | cons o pre ih =>
      intro h
      generalize hq : (Except.ok rs : Except Err _) = q at h
      cases h with
      | cons h1 h2 h3 =>
        obtain ⟨M1, rs1, v, g1, g2⟩ := ih _ _ h3
        exact ⟨M1, _, v, .cons h1 h2 g1, g2⟩
      | fail _ => cases hq
      | later _ _ _ => cases hq
  · intro hd
    induction pre generalizing M rs with
    | nil =>
      intro h
      generalize hq : (Except.ok rs : Except Err _) = q at h
      cases h with
      | cons h _ _ =>
        refine ⟨M, [], ?_⟩
        generalize hq : (Except.ok _ : Except Err OpResult) = q at h
        cases h with
        | stored h _ => cases h
        | notStored h => cases hq
        | current hs hr => exact ⟨_, _, .nil _, hs, hr⟩
        | currentMissing _ _ => cases hq
        | currentStale _ _ _ _ => cases hq
      | fail _ => cases hq
      | later _ _ _ => cases hq
    | cons o pre ih =>
      intro h
      generalize hq : (Except.ok rs : Except Err _) = q at h
      cases h with
      | cons h1 h2 h3 =>
        obtain ⟨M1, rs1, n, y, g1, g2⟩ := ih _ _ h3
        exact ⟨M1, _, n, y, .cons h1 h2 g1, g2⟩
      | fail _ => cases hq
      | later _ _ _ => cases hq

end Many

/-! ## Concrete cases -/

/-- Two collections. -/
def exPair : Bool → Coll
  | false => exColl
  | true => { exColl with name := exD, naturalId := fun _ => none }

def exPairOrders : KeyOrders exPair where
  first := fun b => match b with | false => some (primFirst 1) | true => some (primFirst 1)
  next := fun b => match b with
    | false => (uintNext : BitVec (8 * 1) → _)
    | true => (uintNext : BitVec (8 * 1) → _)

def exPairSchema : Schema := { exTSchema with collections := [exC, exD] }

theorem ex_pair_lawful : LawfulFamily exPairSchema exPair exPairOrders where
  lawful := by
    intro b
    cases b with
    | false => exact { known := by decide, key := uint_rt 1, contents := ex_lawful.contents, nextId := rfl }
    | true => exact { known := by decide, key := uint_rt 1, contents := ex_lawful.contents, nextId := rfl }
  distinct := by
    intro b c h
    cases b <;> cases c <;> first | rfl | exact absurd h (by decide)

/-- A transfer: remove a document from one collection and store it in the other, if both are as
expected. -/
def exTransfer (k : BitVec 8) (rev : Revision) (x : Bytes) : List (AnyOp exPair) :=
  [⟨false, .delete ⟨k, rev⟩⟩, ⟨true, .insert (some k) x⟩]

/-- The first transfer succeeds; the second fails at its second operation, and its first is undone. -/
def exTransfers : List (Nat × List (AnyOp exPair)) :=
  [(1, [⟨false, .insert (some (1 : BitVec 8)) ([7] : Bytes)⟩, ⟨false, .insert (some (2 : BitVec 8)) ([8] : Bytes)⟩,
        ⟨true, .insert (some (2 : BitVec 8)) ([9] : Bytes)⟩, ⟨true, .checkExists (2 : BitVec 8)⟩]),
   (2, exTransfer 1 ⟨0, [7]⟩ [7]), (3, exTransfer 2 ⟨0, [8]⟩ [8])]

example : ∀ t ∈ exTransfers, ∀ o ∈ t.2, OpIn (fun _ => True) o.2 := fun _ _ _ _ _ _ _ _ => trivial

/-- The results that are successes. -/
def okResults : Except TErr (List OpResult) → Option (List OpResult)
  | .ok rs => some rs
  | .error _ => none

example : (runTxs exPairSchema exPair .empty exTransfers).1.map okResults =
    [some [.updated exC ⟨[1], ⟨0, [7]⟩⟩, .updated exC ⟨[2], ⟨0, [8]⟩⟩, .updated exD ⟨[2], ⟨0, [9]⟩⟩, .success],
     some [.deleted exC [1], .updated exD ⟨[1], ⟨0, [7]⟩⟩], none] := by decide +kernel

example : (getDoc (runTxs exPairSchema exPair .empty exTransfers).2 exC [2]).map (·.contents) = some [8] ∧
    (getDoc (runTxs exPairSchema exPair .empty exTransfers).2 exC [1]).map (·.contents) = none ∧
    (getDoc (runTxs exPairSchema exPair .empty exTransfers).2 exD [1]).map (·.contents) = some [7] := by
  decide +kernel

end Bonsai.Typed
