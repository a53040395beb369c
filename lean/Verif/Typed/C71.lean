import Verif.Typed.Refine

/-!
# C71: the typed collection API is a map from primary keys to contents
-/
set_option linter.unusedSimpArgs false
set_option linter.unusedVariables false

namespace Bonsai.Typed
open Bonsai Bonsai.Names Bonsai.Query Bonsai.Store

/-- **C71.** Every history of typed calls on a collection, interleaved with arbitrary transactions on
other collections, is answered as by a map from primary keys to (revision number, contents) that
starts empty; afterwards `get` shows exactly the final map. -/
theorem C71_typed_map (s : Schema) (C : Coll) (first : Option C.key.T) (next : C.key.T → Option C.key.T)
    (hl : Lawful s C first next) (S : Bytes → Prop) (hS : CollisionFree s.digest S)
    (dflt : CHeader C.key) (es : List (Event C)) (hes : EventsIn S C es) :
    ∃ final : TMap C,
      TSpecAll s C first next (fun _ => none) es (runAll s C dflt .empty es).1 final ∧
      (∀ k n x, final k = some (n, x) → ∃ d, get C (runAll s C dflt .empty es).2 k = .ok (some d) ∧
        IsDoc s.digest C k n x d) ∧
      (∀ k, final k = none → (∃ e, BadKey C.key k e) ∨
        get C (runAll s C dflt .empty es).2 k = .ok none) := by
  obtain ⟨h1, h2, h3⟩ := runAll_refines hS hl dflt es .empty .empty wellTyped_empty hes
  have he : mapOf C Db.empty.trees.abs = fun _ => none := by
    funext k
    unfold mapOf
    split <;> rfl
  rw [he] at h3
  generalize hdb : (runAll s C dflt .empty es).2 = db at h1 h2 h3 ⊢
  refine ⟨_, h3, ?_, ?_⟩
  · intro k n x hk
    obtain ⟨id, hid⟩ := mapOf_documentId hk
    obtain ⟨b, ha, hb⟩ := (mapOf_some hl h2 hid).mp hk
    obtain ⟨id', d, g1, g2, g3, -⟩ := stored_of_shown hl (h1.wf hS) h2
      (cd := ⟨⟨k, ⟨n, s.digest b⟩⟩, x⟩) ⟨n, hk, b, hb, rfl⟩
    refine ⟨⟨⟨k, ⟨n, s.digest b⟩⟩, x⟩, ?_, rfl, rfl, b, hb, rfl⟩
    simp only at g1
    simp only [get, g1, g2, g3]
  · intro k hk
    cases hd : documentId C.key k with
    | error e => exact .inl ⟨e, documentId_err hd⟩
    | ok id =>
      right
      have := (mapOf_none hl h2 hd).mp hk
      unfold get
      simp only [hd]
      cases hg : getDoc db C.name id with
      | none => rfl
      | some d => rw [abs_eq, abs_of_get hg] at this; cases this

/-- **C71.** After any such history a call never ends in `unreachable!`, and never in a panic of the
conversions; and a call that answers an error leaves the whole database as it was. -/
theorem C71_calls_are_safe (s : Schema) (C : Coll) (first : Option C.key.T)
    (next : C.key.T → Option C.key.T) (hl : Lawful s C first next) (S : Bytes → Prop)
    (hS : CollisionFree s.digest S) (dflt : CHeader C.key) (es : List (Event C)) (hes : EventsIn S C es)
    (tid : Nat) (c : TCall C) (hc : CallIn S C c) (e : TErr)
    (he : (run s C dflt (runAll s C dflt .empty es).2 tid c).1 = .error e) :
    e ≠ .unreachable ∧ e ≠ .panic ∧
      (run s C dflt (runAll s C dflt .empty es).2 tid c).2 = (runAll s C dflt .empty es).2 := by
  obtain ⟨h1, h2, -⟩ := runAll_refines hS hl dflt es .empty .empty wellTyped_empty hes
  obtain ⟨-, -, h3, h4⟩ := run_refines hS hl h1 h2 dflt tid c hc
  refine and_assoc.mp ⟨?_, h4 e he⟩
  have key : ∀ {m m' : TMap C}, TSpec s C first next m c (.error e) m' → e ≠ .unreachable ∧ e ≠ .panic := by
    have ins : ∀ {m m' : TMap C} {k x r}, InsertSpec s.digest C m k x r m' → r = .error e →
        e ≠ .unreachable ∧ e ≠ .panic := by
      intro m m' k x r h hr
      cases h with
      | ok _ _ _ => cases hr
      | conflict _ _ _ => cases hr; simp
    have wri : ∀ {m m' : TMap C} {k n y x r}, WriteSpec s.digest C m k n y x r m' → r = .error e →
        e ≠ .unreachable ∧ e ≠ .panic := by
      intro m m' k n y x r h hr
      cases h with
      | same _ _ => cases hr
      | changed _ _ _ _ => cases hr
      | exhausted _ _ => cases hr; simp
    have psh : ∀ {m m' : TMap C} {x r}, PushSpec s.digest C first next m x r m' → r = .error e →
        e ≠ .unreachable ∧ e ≠ .panic := by
      intro m m' x r h hr
      cases h with
      | natural _ h => exact ins h hr
      | auto _ _ h => exact ins h hr
      | noKey _ _ => cases hr; simp
    have psa : ∀ {m m' : TMap C} {xs r}, PushAllSpec s.digest C first next m xs r m' → r = .error e →
        e ≠ .unreachable ∧ e ≠ .panic := by
      intro m m' xs r h hr
      induction h with
      | nil m => cases hr
      | cons _ _ _ => cases hr
      | fail h => cases hr; exact psh h rfl
      | later _ _ ih => exact ih hr
    have unwrap : ∀ {r : Except TErr (CDoc C)}, wrap TAnswer.doc r = (.error e : Except TErr (TAnswer C)) →
        r = .error e := by
      intro r h; cases r with
      | error e' => cases h; rfl
      | ok _ => cases h
    intro m m' h
    generalize hr : (Except.error e : Except TErr (TAnswer C)) = r at h
    cases h with
    | badKey k _ h => cases hr; cases h <;> simp
    | badContents x _ h => cases hr; cases h; simp
    | rejected _ h => cases hr; cases h; simp
    | push h => exact psh h (unwrap hr.symm)
    | pushAll h => cases hr
    | pushAllFail h => cases hr; exact psa h rfl
    | insert h => exact ins h (unwrap hr.symm)
    | overwriteNew _ h => exact ins h (unwrap hr.symm)
    | overwrite _ h => exact wri h (unwrap hr.symm)
    | updateMissing _ _ => cases hr; simp
    | update _ _ h => exact wri h (unwrap hr.symm)
    | updateStale _ _ _ _ => cases hr; simp
    | deleteMissing _ _ => cases hr; simp
    | delete _ _ _ => cases hr
    | deleteStale _ _ _ _ => cases hr; simp
    | getMissing _ => cases hr
    | get _ _ => cases hr
    | getMultiple _ _ => cases hr
    | list _ => cases hr
    | headers _ _ => cases hr
    | count _ => cases hr
  rw [he] at h3
  exact key h3

/-- **C71.** When the key type's encoding preserves its order, a listing is the listing of the map in
the order of the keys themselves: the entries within the range, each once, ascending or descending,
cut at the limit. -/
theorem C71_list_in_key_order (s : Schema) (C : Coll) (first : Option C.key.T)
    (next : C.key.T → Option C.key.T) (hl : Lawful s C first next) (hord : SortsCorrectly C.key)
    (S : Bytes → Prop) (hS : CollisionFree s.digest S) (dflt : CHeader C.key) (es : List (Event C))
    (hes : EventsIn S C es) (l : ListSettings C.key) (ds : List (CDoc C))
    (hlist : list C (runAll s C dflt .empty es).2 l = .ok ds) :
    ∃ final : TMap C,
      TSpecAll s C first next (fun _ => none) es (runAll s C dflt .empty es).1 final ∧
      Listing s.digest C C.key.lt final l ds := by
  obtain ⟨h1, h2, h3⟩ := runAll_refines hS hl dflt es .empty .empty wellTyped_empty hes
  have he : mapOf C Db.empty.trees.abs = fun _ => none := by
    funext k
    unfold mapOf
    split <;> rfl
  rw [he] at h3
  generalize hdb : (runAll s C dflt .empty es).2 = db at h1 h2 h3 hlist
  refine ⟨_, h3, ?_⟩
  have hbl : ∀ {v w x y}, documentId C.key v = .ok x → documentId C.key w = .ok y →
      (Before C.key v w ↔ C.key.lt v w) := by
    intro v w x y hv hw
    rw [before_iff hv hw]
    exact hord v w x y (documentId_ok.mp hv).1 (documentId_ok.mp hw).1
  unfold list at hlist
  cases hra : rangeIds C.key l.range with
  | error e => rw [hra] at hlist; cases hlist
  | ok r =>
    rw [hra] at hlist
    simp only at hlist
    obtain ⟨ds', g1, g2, -⟩ := (good_list hS hl h1 h2 l).2 r hra
    rw [hlist] at g2
    cases g2
    obtain ⟨all, a1, a2, a3⟩ := g1
    have hwb : ∀ k id, documentId C.key k = .ok id →
        (WithinBy (Before C.key) l.range k ↔ WithinBy C.key.lt l.range k) := by
      intro k id hk
      rcases hlr : l.range with ⟨x, y⟩
      rw [hlr] at hra
      unfold rangeIds at hra
      simp only at hra
      cases hx : boundIds C.key x with
      | error e => rw [hx] at hra; cases hra
      | ok x' =>
        rw [hx] at hra
        simp only at hra
        cases hy : boundIds C.key y with
        | error e => rw [hy] at hra; cases hra
        | ok y' =>
          have bnd : ∀ {b : Bound C.key.T} {b'}, boundIds C.key b = .ok b' → ∀ v ∈ boundKeys b,
              ∃ i, documentId C.key v = .ok i := by
            intro b b' hb v hv
            cases b with
            | unbounded => simp [boundKeys] at hv
            | included w =>
              simp [boundKeys] at hv; subst hv
              simp only [boundIds] at hb
              cases hd : documentId C.key v with
              | error e => rw [hd] at hb; cases hb
              | ok i => exact ⟨i, rfl⟩
            | excluded w =>
              simp [boundKeys] at hv; subst hv
              simp only [boundIds] at hb
              cases hd : documentId C.key v with
              | error e => rw [hd] at hb; cases hb
              | ok i => exact ⟨i, rfl⟩
          simp only [WithinBy]
          refine and_congr ?_ ?_
          · cases x with
            | unbounded => exact Iff.rfl
            | included v =>
              obtain ⟨i, hi⟩ := bnd hx v (by simp [boundKeys])
              simp only; rw [hbl hi hk]
            | excluded v =>
              obtain ⟨i, hi⟩ := bnd hx v (by simp [boundKeys])
              simp only; rw [hbl hi hk]
          · cases y with
            | unbounded => exact Iff.rfl
            | included v =>
              obtain ⟨i, hi⟩ := bnd hy v (by simp [boundKeys])
              simp only; rw [hbl hk hi]
            | excluded v =>
              obtain ⟨i, hi⟩ := bnd hy v (by simp [boundKeys])
              simp only; rw [hbl hk hi]
    have hids : ∀ d ∈ all, ∃ id, documentId C.key d.header.id = .ok id := by
      intro d hd
      obtain ⟨n, hm, -⟩ := (a1 d).mp hd
      exact mapOf_documentId hm
    refine ⟨all, ?_, ?_, a3⟩
    · intro d
      rw [a1 d]
      constructor
      · rintro ⟨n, b1, b2, b3⟩
        obtain ⟨id, hid⟩ := mapOf_documentId b1
        exact ⟨n, b1, b2, (hwb _ id hid).mp b3⟩
      · rintro ⟨n, b1, b2, b3⟩
        obtain ⟨id, hid⟩ := mapOf_documentId b1
        exact ⟨n, b1, b2, (hwb _ id hid).mpr b3⟩
    · cases ho : l.order with
      | ascending =>
        rw [ho] at a2
        simp only at a2 ⊢
        refine List.Pairwise.imp_of_mem ?_ a2
        intro d e hd he' h
        obtain ⟨i, hi⟩ := hids d hd
        obtain ⟨j, hj⟩ := hids e he'
        exact (hbl hi hj).mp h
      | descending =>
        rw [ho] at a2
        simp only at a2 ⊢
        refine List.Pairwise.imp_of_mem ?_ a2
        intro d e hd he' h
        obtain ⟨i, hi⟩ := hids d hd
        obtain ⟨j, hj⟩ := hids e he'
        exact (hbl hj hi).mp h

/-- **C71.** `push_all` stores every item it was given, in order, under pairwise different new keys:
each returned document carries its own contents. -/
theorem C71_push_all_pairs (dg : Bytes → Bytes) (C : Coll) (first : Option C.key.T)
    (next : C.key.T → Option C.key.T) (m m' : TMap C) (xs : List C.Contents) (ds : List (CDoc C))
    (h : PushAllSpec dg C first next m xs (.ok ds) m') :
    ds.map (·.contents) = xs ∧ (ds.map (·.header.id)).Nodup ∧
      (∀ d ∈ ds, m d.header.id = none ∧ m' d.header.id = some (0, d.contents)) ∧
      ∀ k, (∀ d ∈ ds, d.header.id ≠ k) → m' k = m k := by
  generalize hr : (Except.ok ds : Except TErr (List (CDoc C))) = r at h
  induction h generalizing ds with
  | nil m => cases hr; simp
  | @cons m x xs d m1 ds1 m2 hp hs ih =>
    cases hr
    obtain ⟨i1, i2, i3, i4⟩ := ih ds1 rfl
    have hins : ∃ k, m k = none ∧ IsDoc dg C k 0 x d ∧ Changed m k (some (0, x)) m1 := by
      generalize hq : (Except.ok d : Except TErr (CDoc C)) = q at hp
      cases hp with
      | natural _ h =>
        cases h with
        | ok a b c => cases hq; exact ⟨_, a, b, c⟩
        | conflict _ _ _ => cases hq
      | auto _ _ h =>
        cases h with
        | ok a b c => cases hq; exact ⟨_, a, b, c⟩
        | conflict _ _ _ => cases hq
      | noKey _ _ => cases hq
    obtain ⟨k, hk, ⟨hd1, hd2, -⟩, hc1, hc2⟩ := hins
    subst hd1
    have hfresh : ∀ e ∈ ds1, e.header.id ≠ d.header.id := by
      intro e he heq
      have := (i3 e he).1
      rw [heq, hc1] at this; cases this
    refine ⟨by simp [hd2, i1], ?_, ?_, ?_⟩
    · simp only [List.map_cons, List.nodup_cons]
      refine ⟨?_, i2⟩
      intro hm
      obtain ⟨e, he, hee⟩ := List.mem_map.mp hm
      exact hfresh e he hee
    · intro e he
      rcases List.mem_cons.mp he with rfl | he
      · exact ⟨hk, by rw [i4 _ hfresh, hc1, hd2]⟩
      · exact ⟨by rw [← hc2 _ (hfresh e he)]; exact (i3 e he).1, (i3 e he).2⟩
    · intro j hj
      rw [i4 j fun e he => hj e (List.mem_cons_of_mem _ he)]
      exact hc2 j fun h => hj d List.mem_cons_self h.symm
  | fail _ => cases hr
  | later _ _ _ => cases hr

/-! ## Concrete cases -/

/-- A collection with `u8` primary keys and byte strings as contents (at least one byte long; the
first byte 0 means a natural id follows). -/
def exColl : Coll where
  name := exC
  key := uintKey 1
  Contents := Bytes
  serialize := fun x => if x = [] then none else some x
  deserialize := fun b => some b
  naturalId := fun x => match x with | [0, k] => some (BitVec.ofNat 8 k.toNat) | _ => none

/-- Its schema. -/
def exTSchema : Schema :=
  { exSchema with nextId := fun _ => keyNextId (uintKey 1) (some (primFirst 1)) uintNext }

theorem ex_lawful : Lawful exTSchema exColl (some (primFirst 1)) uintNext where
  known := by decide
  key := uint_rt 1
  contents := by
    intro (x : Bytes) b h
    change (if x = [] then none else some x) = some b at h
    show some b = some x
    by_cases hx : x = []
    · simp only [hx, if_true] at h; cases h
    · simp only [hx, if_false] at h; exact h.symm
  nextId := rfl

theorem exTCollisionFree : CollisionFree exTSchema.digest (fun _ => True) := fun _ _ _ _ h => h

def exDflt : CHeader exColl.key := ⟨(0 : BitVec 8), ⟨0, []⟩⟩

/-- Push two, insert one with a natural id, update, delete, overwrite. -/
def exEvents : List (Event exColl) :=
  [.call 1 (.pushAll [[7], [0, 200], [8]]),
   .call 2 (.update ⟨⟨(1 : BitVec 8), ⟨0, [7]⟩⟩, [9]⟩),
   .call 3 (.delete ⟨(200 : BitVec 8), ⟨0, [0, 200]⟩⟩),
   .call 4 (.overwrite (3 : BitVec 8) [5]),
   .call 5 (.update ⟨⟨(1 : BitVec 8), ⟨0, [7]⟩⟩, [1]⟩)]

example : EventsIn (fun _ => True) exColl exEvents := by
  intro e he
  simp only [exEvents, List.mem_cons, List.not_mem_nil, or_false] at he
  rcases he with rfl | rfl | rfl | rfl | rfl <;> intro _ _ _ _ <;> trivial

/-- Contents and ids of a typed answer. -/
def shown : Except TErr (TAnswer exColl) → List (Nat × Nat × Bytes)
  | .ok (.docs ds) => ds.map fun d => (BitVec.toNat (w := 8) d.header.id, d.header.revision.id, d.contents)
  | _ => []

example : shown (run exTSchema exColl exDflt (runAll exTSchema exColl exDflt .empty exEvents).2 9
    (.list { range := ⟨.included (1 : BitVec 8), .excluded (201 : BitVec 8)⟩, order := .descending })).1
    = [(3, 0, [5]), (1, 1, [9])] := by decide +kernel
example : shown (run exTSchema exColl exDflt (runAll exTSchema exColl exDflt .empty exEvents).2 9
    (.list { range := ⟨.unbounded, .unbounded⟩, limit := some 2 })).1
    = [(1, 1, [9]), (3, 0, [5])] := by decide +kernel

/-! ## Where the English statement fails -/

/-- **C71 violated** for signed keys: their encoding does not sort like the numbers, so a range around
zero lists nothing although a key inside it is present. -/
def exSigned : Coll := { exColl with key := intKey 1, naturalId := fun _ => none }

theorem C71_violated_signed_range :
    ∃ db, Reachable exSchema (fun _ => True) db ∧
      (∃ d, get exSigned db (0 : BitVec 8) = .ok (some d)) ∧
      WithinBy (intKey 1).lt ⟨.included (-1 : BitVec 8), .included (1 : BitVec 8)⟩ (0 : BitVec 8) ∧
      list exSigned db { range := ⟨.included (-1 : BitVec 8), .included (1 : BitVec 8)⟩ } = .ok [] := by
  refine ⟨(insert exSchema exSigned .empty 1 (0 : BitVec 8) [7]).2, ?_, ⟨_, rfl⟩, ?_, rfl⟩
  · exact .transaction 1 [⟨exC, .insert (some [0]) [7]⟩] .empty (fun _ _ _ _ => trivial)
  · constructor
    · exact .inr (by decide)
    · exact .inr (by decide)

/-- **C71 violated**: `get_multiple` does not answer in the order asked for. -/
theorem C71_violated_get_multiple_order :
    ∃ db, Reachable exTSchema (fun _ => True) db ∧
      shown (run exTSchema exColl exDflt db 9 (.getMultiple [(2 : BitVec 8), (1 : BitVec 8)])).1 =
        [(1, 0, [7]), (2, 0, [8])] := by
  refine ⟨(run exTSchema exColl exDflt .empty 1 (.pushAll [[7], [8]])).2, ?_, by decide +kernel⟩
  exact .transaction 1 [⟨exC, .insert none [7]⟩, ⟨exC, .insert none [8]⟩] .empty (fun _ _ _ _ => trivial)

/-- **C71 violated**: a `DocumentId` is accepted as the id of any collection.  If it is not the
encoding of a primary key, the insert answers an error although the document is stored … -/
theorem C71_violated_raw_id (s : Schema) (C : Coll) (hk : C.name ∈ s.collections) (hn : NoEager s C.name)
    (db : Db) (tid : Nat) (id : Bytes) (hid : C.key.dec id = .err) (hnew : getDoc db C.name id = none)
    (x : C.Contents) (b : Bytes) (hx : C.serialize x = some b) :
    (insertId s C db tid (some id) x).1 = .error .key ∧
      ∃ d, getDoc (insertId s C db tid (some id) x).2 C.name id = some d ∧ d.contents = b := by
  have hs : ser C x = .ok b := ser_ok.mpr hx
  have hex : ∃ t', execOp s db.trees ⟨C.name, .insert (some id) b⟩ =
      .ok (t', .updated C.name (Document.new s.digest id b).header) := by
    simp only [execOp, execInsert, Option.orElse]
    rw [show (db.trees.docs C.name).get id = none from hnew]
    simp only
    cases hst : storeDoc s C.name db.trees id (Document.new s.digest id b) with
    | error e => exact absurd hn (storeDoc_err hst).2
    | ok t => exact ⟨t, rfl⟩
  obtain ⟨t', hex⟩ := hex
  rcases apply_single (s := s) (db := db) (tid := tid) (op := ⟨C.name, .insert (some id) b⟩) hk with
    ⟨t2, r, ch, h1, h2⟩ | ⟨e, h1, h2⟩
  · rw [hex] at h1
    cases h1
    have hof : CHeader.ofHeader C.key (Document.new s.digest id b).header = .error .key := by
      simp [CHeader.ofHeader, Document.new, decodeId, hid]
    simp only [insertId, hs, applyWrite, h2, firstUpdated, answerDoc, hof]
    refine ⟨trivial, ?_⟩
    obtain ⟨h, hr, -, h4, -, h5, -⟩ := C23_insert_starts_at_zero s _ _ C.name (some id) b _ hex
    cases hr
    exact ⟨_, h5, rfl⟩
  · rw [hex] at h1; cases h1

/-- … and from then on listing the collection and pushing into it fail. -/
theorem C71_violated_raw_id_breaks_collection :
    let db := (insertId exTSchema exColl .empty 1 (some [255, 2, 3]) [7]).2
    Reachable exTSchema (fun _ => True) db ∧
      list exColl db { range := ⟨.unbounded, .unbounded⟩ } = .error .key ∧
      (push exTSchema exColl db 2 [8]).1 = .error (.db .push) := by
  refine ⟨?_, rfl, rfl⟩
  exact .transaction 1 [⟨exC, .insert (some [255, 2, 3]) [7]⟩] .empty (fun _ _ _ _ => trivial)

example : exColl.key.dec [255, 2, 3] = .err := by rfl

end Bonsai.Typed
