import Verif.Typed.Reads
import Verif.Key.Props

/-!
# C71: every typed call refines the map
-/
set_option linter.unusedSimpArgs false
set_option linter.unusedVariables false

namespace Bonsai.Typed
open Bonsai Bonsai.Names Bonsai.Query Bonsai.Store

variable {s : Schema} {C : Coll} {first : Option C.key.T} {next : C.key.T → Option C.key.T}
variable {S : Bytes → Prop} {db : Db}

/-- What has to be shown of a call. -/
def Good (s : Schema) (C : Coll) (first : Option C.key.T) (next : C.key.T → Option C.key.T)
    (S : Bytes → Prop) (db : Db) (c : TCall C) (r : Except TErr (TAnswer C) × Db) : Prop :=
  Reachable s S r.2 ∧ WellTyped C r.2.trees.abs ∧
    TSpec s C first next (mapOf C db.trees.abs) c r.1 (mapOf C r.2.trees.abs) ∧
    ∀ e, r.1 = .error e → r.2 = db

theorem good_same (hr : Reachable s S db) (ht : WellTyped C db.trees.abs) {c r}
    (h : TSpec s C first next (mapOf C db.trees.abs) c r (mapOf C db.trees.abs)) :
    Good s C first next S db c (r, db) := ⟨hr, ht, h, fun _ _ => rfl⟩

theorem applyWrite_cases (hS : CollisionFree s.digest S) (hl : Lawful s C first next)
    (hr : Reachable s S db) {tid cmd} (hw : ∀ x, cmd.contents = some x → S x) :
    (∃ last r db', applyWrite s db tid ⟨C.name, cmd⟩ = (firstUpdated [r], db') ∧ Reachable s S db' ∧
      IsLargest db.trees.abs C.name last ∧
      specOp s.digest db.trees.abs (s.nextId C.name last) ⟨C.name, cmd⟩ = .ok (db'.trees.abs, r)) ∨
    (∃ e, applyWrite s db tid ⟨C.name, cmd⟩ = (.error (.db e), db) ∧
      ((∃ last, IsLargest db.trees.abs C.name last ∧
        specOp s.digest db.trees.abs (s.nextId C.name last) ⟨C.name, cmd⟩ = .error e) ∨
        Rejected s C (.db e))) := by
  rcases single_refines (tid := tid) hS hl (hr.wf hS) hw with ⟨last, r, db', h1, -, h3, h4⟩ | ⟨e, h1, h2⟩
  · refine .inl ⟨last, r, db', ?_, ?_, h3, h4⟩
    · simp only [applyWrite, h1]
    · have : Reachable s S (applyToRoots s db tid [⟨C.name, cmd⟩]).2 :=
        .transaction tid _ hr (by intro op ho x hx; simp at ho; subst ho; exact hw x hx)
      rw [h1] at this; exact this
  · exact .inr ⟨e, by simp only [applyWrite, h1], h2⟩

/-- The common end of a write: what the transaction reports becomes the answer. -/
theorem good_write (hS : CollisionFree s.digest S) (hl : Lawful s C first next)
    (hr : Reachable s S db) (ht : WellTyped C db.trees.abs) {tid cmd} {x : C.Contents} {c : TCall C}
    (hw : ∀ b, cmd.contents = some b → S b)
    (hc : match c with
        | .get _ | .getMultiple _ | .list _ | .headers _ | .count _ => False | _ => True)
    (hspec : ∀ last, IsLargest db.trees.abs C.name last →
      match specOp s.digest db.trees.abs (s.nextId C.name last) ⟨C.name, cmd⟩ with
      | .ok (a', .updated _ h) => ∃ k, documentId C.key k = .ok h.id ∧ WellTyped C a' ∧
          TSpec s C first next (mapOf C db.trees.abs) c (.ok (.doc ⟨⟨k, h.revision⟩, x⟩)) (mapOf C a')
      | .ok _ => False
      | .error e => TSpec s C first next (mapOf C db.trees.abs) c (.error (.db e))
          (mapOf C db.trees.abs)) :
    Good s C first next S db c
      (wrap .doc (answerDoc C x (applyWrite s db tid ⟨C.name, cmd⟩)).1,
        (answerDoc C x (applyWrite s db tid ⟨C.name, cmd⟩)).2) := by
  rcases applyWrite_cases (tid := tid) hS hl hr hw with ⟨last, r, db', h1, h2, h3, h4⟩ | ⟨e, h1, h2⟩
  · have := hspec last h3
    rw [h4] at this
    cases r with
    | updated cn h =>
      obtain ⟨k, hk, ht', hs⟩ := this
      have hof : CHeader.ofHeader C.key h = .ok ⟨k, h.revision⟩ := by
        obtain ⟨i, rv⟩ := h; exact ofHeader_of hl hk
      rw [h1]
      simp only [firstUpdated, answerDoc, hof, wrap]
      exact ⟨h2, ht', hs, fun _ he => by cases he⟩
    | _ => exact this.elim
  · rw [h1]
    simp only [answerDoc, wrap]
    refine good_same hr ht ?_
    rcases h2 with ⟨last, h3, h4⟩ | h2
    · have := hspec last h3
      rw [h4] at this; exact this
    · exact .rejected hc h2

theorem good_insert (hS : CollisionFree s.digest S) (hl : Lawful s C first next)
    (hr : Reachable s S db) (ht : WellTyped C db.trees.abs) {tid k x}
    (hx : ∀ b, C.serialize x = some b → S b) {c : TCall C}
    (hc : c = .insert k x ∨ c = .push x ∧ C.naturalId x = some k) :
    Good s C first next S db c
      (wrap .doc (insert s C db tid k x).1, (insert s C db tid k x).2) := by
  have bad1 : ∀ {e}, BadContents C x e → TSpec s C first next (mapOf C db.trees.abs) c (.error e)
      (mapOf C db.trees.abs) := by
    intro e h
    rcases hc with rfl | ⟨rfl, hn⟩
    · exact .badContents x (by simp) h
    · exact .badContents x (by simp) h
  have bad2 : ∀ {e}, BadKey C.key k e → TSpec s C first next (mapOf C db.trees.abs) c (.error e)
      (mapOf C db.trees.abs) := by
    intro e h
    rcases hc with rfl | ⟨rfl, hn⟩
    · exact .badKey k (by simp) h
    · exact .badKey k (by simp [hn]) h
  have fin : ∀ {r m'}, InsertSpec s.digest C (mapOf C db.trees.abs) k x r m' →
      TSpec s C first next (mapOf C db.trees.abs) c (wrap .doc r) m' := by
    intro r m' h
    rcases hc with rfl | ⟨rfl, hn⟩
    · exact .insert h
    · exact .push (.natural hn h)
  unfold insert
  cases hs : ser C x with
  | error e => exact good_same hr ht (bad1 (ser_err hs))
  | ok b =>
    have hs' := ser_ok.mp hs
    cases hk : documentId C.key k with
    | error e => exact good_same hr ht (bad2 (documentId_err hk))
    | ok id =>
      refine good_write hS hl hr ht (by intro b' h; simp [Command.contents] at h; rw [← h]; exact hx b hs')
        (by rcases hc with rfl | ⟨rfl, -⟩ <;> trivial) ?_
      intro last hla
      have := insert_spec (s := s) (nid := s.nextId C.name last) (oid := some id) hl ht hk hs' rfl
      revert this
      cases specOp s.digest db.trees.abs (s.nextId C.name last) ⟨C.name, .insert (some id) b⟩ with
      | error e => exact fun h => fin h
      | ok p =>
        obtain ⟨a', r⟩ := p
        cases r with
        | updated cn h =>
          rintro ⟨h1, h2, h3⟩
          exact ⟨k, by rw [h1]; exact hk, h2, fin h3⟩
        | _ => exact fun h => h

theorem good_push (hS : CollisionFree s.digest S) (hl : Lawful s C first next)
    (hr : Reachable s S db) (ht : WellTyped C db.trees.abs) {tid x}
    (hx : ∀ b, C.serialize x = some b → S b) :
    Good s C first next S db (.push x) (wrap .doc (push s C db tid x).1, (push s C db tid x).2) := by
  unfold push
  cases hn : C.naturalId x with
  | some k => exact good_insert hS hl hr ht hx (.inr ⟨rfl, hn⟩)
  | none =>
    simp only [insertId]
    cases hs : ser C x with
    | error e => exact good_same hr ht (.badContents x (by simp) (ser_err hs))
    | ok b =>
      have hs' := ser_ok.mp hs
      refine good_write hS hl hr ht (by intro b' h; simp [Command.contents] at h; rw [← h]; exact hx b hs')
        trivial ?_
      intro last hla
      have := (push_spec (s := s) hl ht (x := x) (op := ⟨C.name, .insert none b⟩) (by
        simp only [pushOp, hn, hs]) hla).2.2
      revert this
      cases specOp s.digest db.trees.abs (s.nextId C.name last) ⟨C.name, .insert none b⟩ with
      | error e => exact fun h => .push h
      | ok p =>
        obtain ⟨a', r⟩ := p
        cases r with
        | updated cn h =>
          rintro ⟨k, h1, h2, h3⟩
          exact ⟨k, h1, h2, .push h3⟩
        | _ => exact fun h => h

theorem good_overwrite (hS : CollisionFree s.digest S) (hl : Lawful s C first next)
    (hr : Reachable s S db) (ht : WellTyped C db.trees.abs) {tid k x}
    (hx : ∀ b, C.serialize x = some b → S b) :
    Good s C first next S db (.overwrite k x)
      (wrap .doc (overwrite s C db tid k x).1, (overwrite s C db tid k x).2) := by
  unfold overwrite
  cases hs : ser C x with
  | error e => exact good_same hr ht (.badContents x (by simp) (ser_err hs))
  | ok b =>
    have hs' := ser_ok.mp hs
    cases hk : documentId C.key k with
    | error e => exact good_same hr ht (.badKey k (by simp) (documentId_err hk))
    | ok id =>
      refine good_write hS hl hr ht (by intro b' h; simp [Command.contents] at h; rw [← h]; exact hx b hs')
        trivial ?_
      intro last hla
      simp only [specOp]
      cases hd : db.trees.abs C.name id with
      | none =>
        simp only [headerOf]
        have hn := (mapOf_none hl ht hk).mpr hd
        exact ⟨k, hk, wellTyped_put ht hk hs',
          .overwriteNew (r := .ok ⟨⟨k, _⟩, x⟩) hn (.ok hn ⟨rfl, rfl, b, hs', rfl⟩ (changed_put hl hk hs'))⟩
      | some d =>
        obtain ⟨n, b'⟩ := d
        obtain ⟨j, y, hj, hy⟩ := ht id n b' hd
        have := documentId_inj hl.key hj hk
        subst this
        have hm := (mapOf_some hl ht hk).mpr ⟨b', hd, hy⟩
        have hwr := write_refines (s := s) (n := n) hl ht hk hy hs'
        simp only
        revert hwr
        cases absWrite s.digest db.trees.abs C.name id (n, b') b with
        | error e => exact fun h => .overwrite hm h
        | ok p =>
          obtain ⟨a', r⟩ := p
          cases r with
          | updated cn h =>
            rintro ⟨h1, h2, h3⟩
            exact ⟨j, by rw [h1]; exact hk, h2, .overwrite hm h3⟩
          | _ => exact fun h => h

theorem rev_eq (hS : CollisionFree s.digest S) {n : Nat} {b : Bytes} {id : Bytes} {h : Header}
    (hid : h.id = id) : h = headerOf s.digest id (n, b) ↔ h.revision = ⟨n, s.digest b⟩ := by
  obtain ⟨i, r⟩ := h
  simp only at hid
  subst hid
  simp [headerOf]

theorem good_update (hS : CollisionFree s.digest S) (hl : Lawful s C first next)
    (hr : Reachable s S db) (ht : WellTyped C db.trees.abs) {tid} {d : CDoc C}
    (hx : ∀ b, C.serialize d.contents = some b → S b) :
    Good s C first next S db (.update d)
      (wrap .doc (update s C db tid d).1, (update s C db tid d).2) := by
  unfold update CDoc.toDocument
  cases hs : ser C d.contents with
  | error e => exact good_same hr ht (.badContents d.contents (by simp) (ser_err hs))
  | ok b =>
    have hs' := ser_ok.mp hs
    simp only [CHeader.toHeader]
    cases hk : documentId C.key d.header.id with
    | error e => exact good_same hr ht (.badKey d.header.id (by simp) (documentId_err hk))
    | ok id =>
      refine good_write hS hl hr ht (by intro b' h; simp [Command.contents] at h; rw [← h]; exact hx b hs')
        trivial ?_
      intro last hla
      simp only [specOp]
      cases hd : db.trees.abs C.name id with
      | none => exact .updateMissing ((mapOf_none hl ht hk).mpr hd) (documentId_ok.mp hk).1
      | some dd =>
        obtain ⟨n, b'⟩ := dd
        obtain ⟨j, y, hj, hy⟩ := ht id n b' hd
        have := documentId_inj hl.key hj hk
        subst this
        have hm := (mapOf_some hl ht hk).mpr ⟨b', hd, hy⟩
        simp only
        by_cases hrev : (⟨id, d.header.revision⟩ : Header) = headerOf s.digest id (n, b')
        · simp only [hrev, if_true]
          have hrv : IsRev s.digest C n y d.header.revision := ⟨b', hy, by
            have := congrArg Header.revision hrev
            exact this⟩
          have hwr := write_refines (s := s) (n := n) hl ht hk hy hs'
          revert hwr
          cases absWrite s.digest db.trees.abs C.name id (n, b') b with
          | error e => exact fun h => .update hm hrv h
          | ok p =>
            obtain ⟨a', r⟩ := p
            cases r with
            | updated cn h =>
              rintro ⟨h1, h2, h3⟩
              exact ⟨d.header.id, by rw [h1]; exact hk, h2, .update hm hrv h3⟩
            | _ => exact fun h => h
        · simp only [hrev, if_false]
          refine .updateStale hm (documentId_ok.mp hk).1 ⟨b', hy, rfl⟩ ?_
          intro he
          exact hrev (by rw [he]; rfl)

theorem good_delete (hS : CollisionFree s.digest S) (hl : Lawful s C first next)
    (hr : Reachable s S db) (ht : WellTyped C db.trees.abs) {tid} {h : CHeader C.key} :
    Good s C first next S db (.delete h)
      (wrap (fun _ => .done) (delete s C db tid h).1, (delete s C db tid h).2) := by
  unfold delete CHeader.toHeader
  cases hk : documentId C.key h.id with
  | error e => exact good_same hr ht (.badKey h.id (by simp) (documentId_err hk))
  | ok id =>
    simp only
    rcases single_refines (tid := tid) (cmd := .delete ⟨id, h.revision⟩) hS hl (hr.wf hS)
      (by intro x hx; cases hx) with ⟨last, r, db', h1, -, h3, h4⟩ | ⟨e, h1, h2⟩
    · have hr' : Reachable s S db' := by
        have : Reachable s S (applyToRoots s db tid [⟨C.name, .delete ⟨id, h.revision⟩⟩]).2 :=
          .transaction tid _ hr (by intro op ho x hx; simp at ho; subst ho; cases hx)
        rw [h1] at this; exact this
      rw [h1]
      simp only [specOp] at h4
      cases hd : db.trees.abs C.name id with
      | none => rw [hd] at h4; cases h4
      | some dd =>
        obtain ⟨n, b'⟩ := dd
        rw [hd] at h4
        simp only at h4
        by_cases hrev : (⟨id, h.revision⟩ : Header) = headerOf s.digest id (n, b')
        · simp only [hrev, if_true, Except.ok.injEq, Prod.mk.injEq] at h4
          obtain ⟨h4, rfl⟩ := h4
          obtain ⟨j, y, hj, hy⟩ := ht id n b' hd
          have := documentId_inj hl.key hj hk
          subst this
          simp only [firstDeleted, wrap]
          refine ⟨hr', ?_, ?_, fun _ he => by cases he⟩
          · simp only; rw [← h4]; exact wellTyped_remove ht
          · simp only; rw [← h4]
            refine .delete ((mapOf_some hl ht hk).mpr ⟨b', hd, hy⟩) ⟨b', hy, ?_⟩ ?_
            · exact congrArg Header.revision hrev
            · exact changed_remove hl hk
        · simp only [hrev, if_false] at h4; cases h4
    · rw [h1]
      simp only [wrap]
      refine good_same hr ht ?_
      rcases h2 with ⟨last, h3, h4⟩ | h2
      · simp only [specOp] at h4
        cases hd : db.trees.abs C.name id with
        | none =>
          rw [hd] at h4
          cases h4
          exact .deleteMissing ((mapOf_none hl ht hk).mpr hd) (documentId_ok.mp hk).1
        | some dd =>
          obtain ⟨n, b'⟩ := dd
          obtain ⟨j, y, hj, hy⟩ := ht id n b' hd
          have := documentId_inj hl.key hj hk
          subst this
          rw [hd] at h4
          simp only at h4
          by_cases hrev : (⟨id, h.revision⟩ : Header) = headerOf s.digest id (n, b')
          · simp only [hrev, if_true] at h4; cases h4
          · simp only [hrev, if_false] at h4
            cases h4
            refine .deleteStale ((mapOf_some hl ht hk).mpr ⟨b', hd, hy⟩) (documentId_ok.mp hk).1
              ⟨b', hy, rfl⟩ ?_
            intro he
            exact hrev (by rw [he]; rfl)
      · exact .rejected trivial h2

theorem pushOp_err {x : C.Contents} {e} (h : pushOp C x = .error e) :
    BadContents C x e ∨ ∃ k, C.naturalId x = some k ∧ BadKey C.key k e := by
  unfold pushOp at h
  cases hn : C.naturalId x with
  | none =>
    rw [hn] at h
    simp only at h
    cases hx : ser C x with
    | error e' => rw [hx] at h; cases h; exact .inl (ser_err hx)
    | ok b => rw [hx] at h; cases h
  | some k =>
    rw [hn] at h
    simp only at h
    cases hk : documentId C.key k with
    | error e' => rw [hk] at h; cases h; exact .inr ⟨k, rfl, documentId_err hk⟩
    | ok id =>
      rw [hk] at h
      simp only at h
      cases hx : ser C x with
      | error e' => rw [hx] at h; cases h; exact .inl (ser_err hx)
      | ok b => rw [hx] at h; cases h

theorem pushOp_contents {x : C.Contents} {op} (h : pushOp C x = .ok op) {b}
    (hb : op.command.contents = some b) : C.serialize x = some b := by
  unfold pushOp at h
  cases hn : C.naturalId x with
  | none =>
    rw [hn] at h
    simp only at h
    cases hx : ser C x with
    | error e' => rw [hx] at h; cases h
    | ok c => rw [hx] at h; cases h; simp [Command.contents] at hb; rw [← hb]; exact ser_ok.mp hx
  | some k =>
    rw [hn] at h
    simp only at h
    cases hk : documentId C.key k with
    | error e' => rw [hk] at h; cases h
    | ok id =>
      rw [hk] at h
      simp only at h
      cases hx : ser C x with
      | error e' => rw [hx] at h; cases h
      | ok c => rw [hx] at h; cases h; simp [Command.contents] at hb; rw [← hb]; exact ser_ok.mp hx

theorem mem_collect {α β : Type} {f : α → Except TErr β} {l : List α} {bs : List β}
    (h : collect f l = .ok bs) {b} (hb : b ∈ bs) : ∃ a ∈ l, f a = .ok b := by
  have : (Except.ok b : Except TErr β) ∈ l.map f := by
    rw [collect_map h]; exact List.mem_map_of_mem hb
  obtain ⟨a, ha, hf⟩ := List.mem_map.mp this
  exact ⟨a, ha, hf⟩

theorem good_pushAll (hS : CollisionFree s.digest S) (hl : Lawful s C first next)
    (hr : Reachable s S db) (ht : WellTyped C db.trees.abs) {tid} {xs : List C.Contents}
    (dflt : CHeader C.key) (hx : ∀ x ∈ xs, ∀ b, C.serialize x = some b → S b) :
    Good s C first next S db (.pushAll xs)
      (wrap .docs (pushAll s C dflt db tid xs).1, (pushAll s C dflt db tid xs).2) := by
  unfold pushAll
  cases hc : collect (pushOp C) xs with
  | error e =>
    obtain ⟨x, hxm, hxe⟩ := collect_err hc
    refine good_same hr ht ?_
    rcases pushOp_err hxe with h | ⟨k, hn, h⟩
    · exact .badContents x hxm h
    · exact .badKey k (List.mem_filterMap.mpr ⟨x, hxm, hn⟩) h
  | ok ops =>
    have hcol : ∀ op ∈ ops, op.collection = C.name := by
      intro op ho
      obtain ⟨x, -, hxo⟩ := mem_collect hc ho
      exact pushOp_collection hxo
    have hw : Writes S ops := by
      intro op ho b hb
      obtain ⟨x, hxm, hxo⟩ := mem_collect hc ho
      exact hx x hxm b (pushOp_contents hxo hb)
    simp only
    rcases apply_refines (tid := tid) hS hl (hr.wf hS) hw hcol with ⟨rs, db', h1, -, h3⟩ | ⟨e, h1, h2⟩
    · have hr' : Reachable s S db' := by
        have : Reachable s S (applyToRoots s db tid ops).2 := .transaction tid _ hr hw
        rw [h1] at this; exact this
      obtain ⟨ds, g1, g2, g3⟩ := pushAll_ok hl dflt ht hc h3
      rw [h1]
      simp only at g1 g2 g3
      simp only [g1, wrap]
      exact ⟨hr', g2, .pushAll g3, fun _ he => by cases he⟩
    · rw [h1]
      simp only [wrap]
      refine good_same hr ht ?_
      rcases h2 with h2 | h2
      · obtain ⟨m', hm'⟩ := pushAll_err hl ht hc h2
        exact .pushAllFail hm'
      · exact .rejected trivial h2

theorem good_list (hS : CollisionFree s.digest S) (hl : Lawful s C first next)
    (hr : Reachable s S db) (ht : WellTyped C db.trees.abs) (l : ListSettings C.key) :
    (∀ e, rangeIds C.key l.range = .error e →
      ∃ k ∈ boundKeys l.range.start ++ boundKeys l.range.stop, BadKey C.key k e) ∧
    ∀ r, rangeIds C.key l.range = .ok r → ∃ ds,
      Listing s.digest C (Before C.key) (mapOf C db.trees.abs) l ds ∧
      collect (CDoc.ofDocument C) (listDocs db.trees C.name r l.order l.limit) = .ok ds ∧
      (listHeaders db.trees C.name r l.order l.limit).map Except.ok = ds.map (fun d => d.header.toHeader) := by
  refine ⟨fun e h => rangeIds_err h, ?_⟩
  intro r hrange
  obtain ⟨all, h1, h2, h3, h4⟩ := list_all hS hl hr ht hrange
  cases hlim : l.limit with
  | none =>
    refine ⟨all, ⟨all, h3, h4, by rw [hlim]⟩, collect_of_map h1, ?_⟩
    rw [C36_list_headers, List.map_map]
    exact h2
  | some n =>
    refine ⟨all.take n, ⟨all, h3, h4, by rw [hlim]⟩, ?_, ?_⟩
    · rw [C36_list_limit]; exact take_map_ok h1 n
    · rw [C36_list_headers, C36_list_limit, List.map_map, List.map_take, List.map_take]
      exact congrArg (List.take n) h2

theorem good_getMultiple (hS : CollisionFree s.digest S) (hl : Lawful s C first next)
    (hr : Reachable s S db) (ht : WellTyped C db.trees.abs) (ks : List C.key.T) :
    Good s C first next S db (.getMultiple ks) (wrap .docs (getMultiple C db ks), db) := by
  refine good_same hr ht ?_
  unfold getMultiple
  cases hc : collect (documentId C.key) ks with
  | error e =>
    obtain ⟨k, hk, hke⟩ := collect_err hc
    exact .badKey k hk (documentId_err hke)
  | ok ids =>
    simp only
    have hwf := hr.wf hS
    obtain ⟨hmem, hperm, -⟩ := C36_get_multiple s S db hr C.name ids
    obtain ⟨ds, h1, h2⟩ := collect_ok (f := CDoc.ofDocument C) (l := getDocs db.trees C.name ids) (by
      intro d hd
      obtain ⟨cd, h, -⟩ := shown_of_stored hl hwf ht ((hmem d).mp hd).2
      exact ⟨cd, h⟩)
    rw [h1]
    simp only [wrap]
    have hin : ∀ {k id}, documentId C.key k = .ok id → (id ∈ ids ↔ k ∈ ks) := by
      intro k id hk
      constructor
      · intro h
        obtain ⟨j, hj, hjd⟩ := mem_collect hc h
        rw [← documentId_inj hl.key hjd hk]; exact hj
      · intro h
        have : documentId C.key k ∈ ks.map (documentId C.key) := List.mem_map_of_mem h
        rw [collect_map hc, hk] at this
        obtain ⟨i, hi, hie⟩ := List.mem_map.mp this
        cases hie; exact hi
    refine .getMultiple ?_ ?_
    · intro cd
      constructor
      · intro hcd
        have : (Except.ok cd : Except TErr (CDoc C)) ∈
            (getDocs db.trees C.name ids).map (CDoc.ofDocument C) := by
          rw [h2]; exact List.mem_map_of_mem hcd
        obtain ⟨d, hd, hof⟩ := List.mem_map.mp this
        obtain ⟨g1, g2⟩ := (hmem d).mp hd
        obtain ⟨cd', f1, f2, f3, f4⟩ := shown_of_stored hl hwf ht g2
        rw [hof] at f1; cases f1
        exact ⟨(hin f2).mp g1, f4⟩
      · rintro ⟨g1, g2⟩
        obtain ⟨id, d, f1, f2, f3, f4⟩ := stored_of_shown hl hwf ht g2
        have hd : d ∈ getDocs db.trees C.name ids := by
          rw [hmem, f4]; exact ⟨(hin f1).mpr g1, f2⟩
        have : CDoc.ofDocument C d ∈ (getDocs db.trees C.name ids).map (CDoc.ofDocument C) :=
          List.mem_map_of_mem hd
        rw [h2, f3] at this
        obtain ⟨e, he, hee⟩ := List.mem_map.mp this
        cases hee; exact he
    · -- keys
      have hkeys : ∀ {l : List Document} {cds : List (CDoc C)},
          (∀ d ∈ l, d ∈ getDocs db.trees C.name ids) → l.map (CDoc.ofDocument C) = cds.map Except.ok →
          l.map (fun d => d.header.id) = (cds.map fun c => c.header.id).filterMap
            (fun k => (documentId C.key k).toOption) := by
        intro l
        induction l with
        | nil => intro cds _ h; cases cds with | nil => rfl | cons _ _ => simp at h
        | cons d l ih =>
          intro cds hsub h
          cases cds with
          | nil => simp at h
          | cons cd cds =>
            simp only [List.map_cons, List.cons.injEq] at h
            obtain ⟨g1, g2⟩ := (hmem d).mp (hsub d List.mem_cons_self)
            obtain ⟨cd', f1, f2, f3, f4⟩ := shown_of_stored hl hwf ht g2
            rw [h.1] at f1; cases f1
            have hx : (documentId C.key cd.header.id).toOption = some d.header.id := by rw [f2]; rfl
            rw [List.map_cons, List.map_cons, List.filterMap_cons_some (f := fun k => (documentId C.key k).toOption) hx,
              ih (fun d hd => hsub d (List.mem_cons_of_mem _ hd)) h.2]
      have hk1 := hkeys (fun _ h => h) h2
      rw [hk1] at hperm
      -- decode both sides
      have hdec := hperm.filterMap (fun i => (decodeId C.key i).toOption)
      have e1 : ((ds.map fun c => c.header.id).filterMap fun k => (documentId C.key k).toOption).filterMap
          (fun i => (decodeId C.key i).toOption) = ds.map fun c => c.header.id := by
        rw [List.filterMap_filterMap]
        have hall : ∀ k ∈ ds.map (fun c => c.header.id), ∃ i, documentId C.key k = .ok i := by
          intro k hk
          obtain ⟨cd, hcd, rfl⟩ := List.mem_map.mp hk
          have : (Except.ok cd : Except TErr (CDoc C)) ∈
              (getDocs db.trees C.name ids).map (CDoc.ofDocument C) := by
            rw [h2]; exact List.mem_map_of_mem hcd
          obtain ⟨d, hd, hof⟩ := List.mem_map.mp this
          obtain ⟨cd', f1, f2, -⟩ := shown_of_stored hl hwf ht ((hmem d).mp hd).2
          rw [hof] at f1; cases f1
          exact ⟨_, f2⟩
        generalize ds.map (fun c => c.header.id) = L at hall
        clear hk1 hperm hdec
        induction L with
        | nil => rfl
        | cons k L ih =>
          obtain ⟨i, hi⟩ := hall k List.mem_cons_self
          rw [List.filterMap_cons, ih fun k hk => hall k (List.mem_cons_of_mem _ hk)]
          simp [hi, Except.toOption, decodeId_of hl.key hi]
      have e2 : (ids.filter fun id => (getDoc db C.name id).isSome).filterMap
          (fun i => (decodeId C.key i).toOption) =
          ks.filter fun k => (mapOf C db.trees.abs k).isSome := by
        have hm := collect_map hc
        clear hmem hperm hdec hk1 e1 h1 h2 hin hkeys hc
        induction ks generalizing ids with
        | nil => cases ids with | nil => rfl | cons _ _ => simp at hm
        | cons k ks ih =>
          cases ids with
          | nil => simp at hm
          | cons id ids =>
            simp only [List.map_cons, List.cons.injEq] at hm
            have := ih ids hm.2
            have hsome : (mapOf C db.trees.abs k).isSome = (getDoc db C.name id).isSome := by
              cases hg : getDoc db C.name id with
              | none =>
                rw [(mapOf_none hl ht hm.1).mpr (by rw [abs_eq]; exact abs_of_none hg)]; rfl
              | some d =>
                cases hmk : mapOf C db.trees.abs k with
                | some _ => rfl
                | none =>
                  have := (mapOf_none hl ht hm.1).mp hmk
                  rw [abs_eq, abs_of_get hg] at this; cases this
            simp only [List.filter_cons, hsome]
            cases (getDoc db C.name id).isSome with
            | false => simpa using this
            | true =>
              have hx : (decodeId C.key id).toOption = some k := by rw [decodeId_of hl.key hm.1]; rfl
              simp only [if_true]
              rw [List.filterMap_cons_some (f := fun i => (decodeId C.key i).toOption) hx, this]
      rw [e1, e2] at hdec
      exact hdec

/-- One call. -/
theorem run_refines (hS : CollisionFree s.digest S) (hl : Lawful s C first next)
    (hr : Reachable s S db) (ht : WellTyped C db.trees.abs) (dflt : CHeader C.key) (tid : Nat)
    (c : TCall C) (hc : CallIn S C c) : Good s C first next S db c (run s C dflt db tid c) := by
  cases c with
  | push x => exact good_push hS hl hr ht (hc x (by simp))
  | pushAll xs => exact good_pushAll hS hl hr ht dflt hc
  | insert k x => exact good_insert hS hl hr ht (hc x (by simp)) (.inl rfl)
  | overwrite k x => exact good_overwrite hS hl hr ht (hc x (by simp))
  | update d => exact good_update hS hl hr ht (hc d.contents (by simp))
  | delete h => exact good_delete hS hl hr ht
  | get k =>
    refine good_same hr ht ?_
    unfold get
    cases hk : documentId C.key k with
    | error e => exact .badKey k (by simp) (documentId_err hk)
    | ok id =>
      simp only
      cases hg : getDoc db C.name id with
      | none => exact .getMissing ((mapOf_none hl ht hk).mpr (by rw [abs_eq]; exact abs_of_none hg))
      | some d =>
        obtain ⟨cd, h1, h2, h3, n, h4, h5⟩ := shown_of_stored hl (hr.wf hS) ht hg
        have := documentId_inj hl.key h2 hk
        subst this
        simp only [h1, wrap]
        exact .get h4 ⟨rfl, rfl, h5⟩
  | getMultiple ks => exact good_getMultiple hS hl hr ht ks
  | list l =>
    refine good_same hr ht ?_
    obtain ⟨h1, h2⟩ := good_list hS hl hr ht l
    unfold list
    cases hra : rangeIds C.key l.range with
    | error e => obtain ⟨k, hk, hb⟩ := h1 e hra; exact .badKey k hk hb
    | ok r =>
      obtain ⟨ds, g1, g2, -⟩ := h2 r hra
      simp only [g2, wrap]
      exact .list g1
  | headers l =>
    refine good_same hr ht ?_
    obtain ⟨h1, h2⟩ := good_list hS hl hr ht l
    unfold headers
    cases hra : rangeIds C.key l.range with
    | error e => obtain ⟨k, hk, hb⟩ := h1 e hra; exact .badKey k hk hb
    | ok r =>
      obtain ⟨ds, g1, -, g3⟩ := h2 r hra
      exact .headers g1 g3
  | count l =>
    refine good_same hr ht ?_
    obtain ⟨h1, h2⟩ := good_list hS hl hr ht { l with limit := none }
    unfold count
    cases hra : rangeIds C.key l.range with
    | error e => obtain ⟨k, hk, hb⟩ := h1 e hra; exact .badKey k hk hb
    | ok r =>
      obtain ⟨ds, g1, g2, -⟩ := h2 r hra
      have hlen : countDocs db.trees C.name r = ds.length := by
        rw [C36_count db.trees C.name r l.order]
        have := congrArg List.length (collect_map g2)
        simpa using this
      simp only [wrap, hlen]
      exact .count g1

/-- A transaction on other collections. -/
theorem other_refines (hS : CollisionFree s.digest S) (hr : Reachable s S db)
    (ht : WellTyped C db.trees.abs) {tid ops} (hw : Writes S ops)
    (ho : ∀ op ∈ ops, op.collection ≠ C.name) :
    Reachable s S (applyToRoots s db tid ops).2 ∧
      ∀ id, (applyToRoots s db tid ops).2.trees.abs C.name id = db.trees.abs C.name id := by
  refine ⟨.transaction tid ops hr hw, ?_⟩
  intro id
  have h2 := (serve_refines (q := .transaction tid ops) hS (hr.wf hS) (by
    intro _ _ e; cases e; exact hw)).2
  simp only [serve] at h2
  generalize (applyToRoots s db tid ops).2.trees.abs = z' at h2 ⊢
  generalize db.trees.abs = z at h2 ⊢
  generalize (applyToRoots s db tid ops).1 = r at h2
  cases h2 with
  | ok _ h => exact specRun_frame h ho id
  | fail _ _ => rfl
  | unknown _ => rfl
  | rejected _ _ => rfl
  | large _ => rfl

theorem runAll_refines (hS : CollisionFree s.digest S) (hl : Lawful s C first next)
    (dflt : CHeader C.key) : ∀ (es : List (Event C)) (db : Db), Reachable s S db →
    WellTyped C db.trees.abs → EventsIn S C es →
    Reachable s S (runAll s C dflt db es).2 ∧ WellTyped C (runAll s C dflt db es).2.trees.abs ∧
    TSpecAll s C first next (mapOf C db.trees.abs) es (runAll s C dflt db es).1
      (mapOf C (runAll s C dflt db es).2.trees.abs) := by
  intro es
  induction es with
  | nil => intro db hr ht _; exact ⟨hr, ht, .nil _⟩
  | cons e es ih =>
    intro db hr ht hin
    have hin' : EventsIn S C es := fun e he => hin e (List.mem_cons_of_mem _ he)
    cases e with
    | call tid c =>
      have := hin _ List.mem_cons_self
      obtain ⟨h1, h2, h3, -⟩ := run_refines hS hl hr ht dflt tid c this
      obtain ⟨g1, g2, g3⟩ := ih _ h1 h2 hin'
      exact ⟨g1, g2, .call h3 g3⟩
    | other tid ops =>
      have := hin _ List.mem_cons_self
      obtain ⟨h1, h2⟩ := other_refines (tid := tid) hS hr ht this.1 this.2
      have ht' : WellTyped C (applyToRoots s db tid ops).2.trees.abs := by
        intro id n b h; rw [h2] at h; exact ht id n b h
      obtain ⟨g1, g2, g3⟩ := ih _ h1 ht' hin'
      refine ⟨g1, g2, .other ?_⟩
      rw [mapOf_congr h2] at g3
      exact g3

theorem wellTyped_empty : WellTyped C Db.empty.trees.abs := by
  intro id n b h; cases h

end Bonsai.Typed
