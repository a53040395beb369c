import Verif.Typed.C74d

/-!
# C74: concrete cases and violations
-/
set_option linter.unusedSimpArgs false

namespace Bonsai.Typed
open Bonsai Bonsai.Names Bonsai.Query Bonsai.Store

/-- A view of the example collection (contents: byte strings): the first byte of the contents is the
key, the second (or 1) the value; the reduction is the sum. -/
def exTV (p : Store.Policy) : TView exColl where
  view := "v"
  policy := p
  version := 0
  key := uintKey 1
  Value := UInt8
  serialize := fun x => some [x]
  deserialize := fun b => match b with | [x] => some x | _ => none
  map := fun d => match (show Bytes from d.contents) with
    | [] => none
    | [k] => some [(BitVec.ofNat 8 k.toNat, (1 : UInt8))]
    | k :: x :: _ => some [(BitVec.ofNat 8 k.toNat, x)]
  reduce := fun l _ => .ok (l.map (·.2)).sum

def exTVSchema (p : Store.Policy) : Schema := { exTSchema with views := [(exTV p).erase] }

theorem exTV_lawfulColl (p : Store.Policy) :
    Lawful (exTVSchema p) exColl (some (primFirst 1)) uintNext where
  known := ex_lawful.known
  key := ex_lawful.key
  contents := ex_lawful.contents
  nextId := ex_lawful.nextId

theorem exU8_len (k : BitVec (8 * 1)) (b : Bytes) (h : (uintKey 1).enc k = some b) : b.length = 1 := by
  simp only [uintKey, Option.some.injEq] at h
  rw [← h]
  exact primEnc_length k

theorem exTV_lawful (p : Store.Policy) : LawfulView (exTVSchema p) (exTV p) where
  known := by simp [exTVSchema]
  key := uint_rt 1
  values := by
    intro (x : UInt8) b h
    cases h
    rfl
  fits := by
    intro d ms q b _ _ h
    obtain ⟨k, y⟩ := q
    change (uintKey 1).enc k = some b at h
    have := exU8_len k b h
    omega

theorem exTV_reduces (p : Store.Policy) : HasTReduce (exTV p) ∧ TConsistent (exTV p) := by
  constructor
  · intro l b h; cases h
  · intro gs hl hall
    clear hl
    have key : ∀ (gs : List (BitVec 8 × List UInt8 × UInt8)),
        (∀ g ∈ gs, ((g.2.1.map fun x => (g.1, x)).map (·.2)).sum = g.2.2) →
        ((gs.map fun g => (g.1, g.2.2)).map (·.2)).sum =
          ((gs.flatMap fun g => g.2.1.map fun x => (g.1, x)).map (·.2)).sum := by
      intro gs
      induction gs with
      | nil => intro _; rfl
      | cons g gs ih =>
        intro h
        rw [List.map_cons, List.map_cons, List.flatMap_cons, List.map_append, List.sum_cons,
          List.sum_append, ih fun x hx => h x (List.mem_cons_of_mem _ hx), h g List.mem_cons_self]
    exact congrArg TRed.ok (key gs fun g hg => TRed.ok.inj (hall g hg).2)

theorem exTV_run (p : Store.Policy) (σ : VSys) (h : TVExec (exTVSchema p) (fun _ => True) exColl exStart σ) :
    ViewRun (exTVSchema p) (fun _ => True) (exTV p) (some (primFirst 1)) uintNext exStart σ where
  collisionFree := exTCollisionFree
  distinct := by simp [DistinctViews, exTVSchema]
  coll := exTV_lawfulColl p
  view := exTV_lawful p
  start := exStart_start _
  reach := .empty
  typed := by intro id n b h; cases h
  exec := h

theorem exTypedOps {ops : List Operation} {os : List (TOp exColl)} (h : collect TOp.build os = .ok ops) :
    TypedOps exColl ops := by
  intro op hop _
  obtain ⟨o, _, ho⟩ := (collect_mem h op).mp hop
  exact ⟨o, ho⟩

/-- Three documents: 7 and 9 under key 5 with values 3 and 4, and 8 under key 6. -/
def exTVOps : List Operation :=
  [⟨exC, .insert (some [7]) [5, 3]⟩, ⟨exC, .insert (some [8]) [6]⟩, ⟨exC, .insert (some [9]) [5, 4]⟩]

theorem exTVOps_typed : TypedOps exColl exTVOps :=
  exTypedOps (os := [.insert (some (7 : BitVec 8)) ([5, 3] : Bytes), .insert (some (8 : BitVec 8)) ([6] : Bytes),
    .insert (some (9 : BitVec 8)) ([5, 4] : Bytes)]) rfl

/-- The keys, values and source ids of typed results. -/
def exRows {p : Store.Policy} : Except TErr (List (TMapped (exTV p))) → List (Nat × UInt8 × Nat)
  | .ok rs => rs.map fun r => (BitVec.toNat (w := 8) r.key, r.value, BitVec.toNat (w := 8) r.source.id)
  | .error _ => []

/-- The hypotheses of the theorems are met in a state with three documents; the query for a range of
keys, descending. -/
example : ∃ σ, ViewRun (exTVSchema .eager) (fun _ => True) (exTV .eager) (some (primFirst 1)) uintNext exStart σ ∧
    UpToDate (exTV .eager) σ ∧
    KeysEncodable (exTV .eager).key (some (.range ⟨.included (5 : BitVec 8), .unbounded⟩)) ∧
    exRows (query (exTV .eager) (stored (exTV .eager) σ)
      { key := some (.range ⟨.included (5 : BitVec 8), .unbounded⟩), order := .descending }) =
      [(6, 1, 8), (5, 3, 7), (5, 4, 9)] := by
  refine ⟨_, exTV_run .eager _ (.step (.refl _) (.transaction (tid := 1) exTVOps_typed
    (fun _ _ _ _ => trivial) rfl (Nat.zero_le _))), fun _ => rfl, ?_, by decide +kernel⟩
  intro k hk
  exact ⟨_, rfl, by
    rw [exU8_len k _ rfl]; decide⟩

/-- Reductions: everything, by key, one key. -/
example : ∃ σ, ViewRun (exTVSchema .eager) (fun _ => True) (exTV .eager) (some (primFirst 1)) uintNext exStart σ ∧
    UpToDate (exTV .eager) σ ∧
    Typed.reduce (exTV .eager) (stored (exTV .eager) σ) (.new _) = .ok (8 : UInt8) ∧
    Typed.reduce (exTV .eager) (stored (exTV .eager) σ) { key := some (.matches_ (5 : BitVec 8)) } = .ok (7 : UInt8) ∧
    Typed.reduceGrouped (exTV .eager) (stored (exTV .eager) σ) (.new _) =
      .ok [((5 : BitVec 8), (7 : UInt8)), ((6 : BitVec 8), (1 : UInt8))] := by
  exact ⟨_, exTV_run .eager _ (.step (.refl _) (.transaction (tid := 1) exTVOps_typed
    (fun _ _ _ _ => trivial) rfl (Nat.zero_le _))), fun _ => rfl, rfl, rfl, rfl⟩

theorem exLazyInv {id : Bytes} :
    (removeAll (OMap.set .empty [7] ()) (chunkIds [[7]])).get id = none := by
  rw [removeAll_get, exChunk.1]
  simp only [OMap.get_set, List.mem_singleton]
  by_cases h : id = [7]
  · simp [h]
  · have : [7] ≠ id := fun e => h e.symm
    simp [h, this]

/-- A query of a lazy view that updates the view first, started after the document was inserted; the
view is up to date at the end, so documents can be deleted by it. -/
example : ∃ σ₁ σ : VSys,
    ViewRun (exTVSchema .lazy) (fun _ => True) (exTV .lazy) (some (primFirst 1)) uintNext exStart σ₁ ∧
    UpdatesFirst (exTVSchema .lazy) (fun _ => True) (exTV .lazy) σ₁ σ σ ∧ σ₁.db.lastTid = 2 ∧
    UpToDate (exTV .lazy) σ ∧ NoEager (exTVSchema .lazy) exC ∧
    exRows (query (exTV .lazy) (stored (exTV .lazy) σ) (.new _)) = [(5, 1, 7)] ∧
    (Typed.deleteDocs (exTVSchema .lazy) "db" none (exTV .lazy) (stored (exTV .lazy) σ) (.new _) σ.db 3).1 = .ok 1 := by
  refine ⟨_, _, exTV_run .lazy _ (.step (.refl _)
    (.transaction (tid := 1) (ops := [⟨exC, .insert (some [7]) [5]⟩])
      (exTypedOps (os := [.insert (some (7 : BitVec 8)) ([5] : Bytes)]) rfl) (fun _ _ _ _ => trivial) rfl (Nat.zero_le _))),
    ⟨.step (.step (.step (.step (.refl _)
    (.internal (.begin (v := (exTV .lazy).erase) (by simp [exTVSchema])) rfl))
    (.internal (.scan (pre := []) (post := []) rfl) rfl))
    (.internal (.chunk (pre := []) (post := []) (p := [[7]]) (tid := 2) (bs := [[[7]]]) rfl (by simp)
        (by rw [exChunk.1]; exact .refl _) (by decide) rfl) rfl))
    (.internal (.done (pre := []) (post := []) (by rw [exChunk.2])) rfl), .refl _,
      .inr ⟨2, by show 2 ∈ [2]; simp, by decide⟩⟩, rfl, fun id => exLazyInv, ?_, by decide +kernel, rfl⟩
  intro w hw
  simp only [Schema.viewsIn, exTVSchema, List.mem_filter, List.mem_singleton] at hw
  rw [hw.1]; decide

/-! ## Violations -/

instance : DecidableEq exColl.key.T := inferInstanceAs (DecidableEq (BitVec (8 * 1)))

def exDel : List Operation := [⟨exC, .delete ⟨[8], ⟨0, [6]⟩⟩⟩]

theorem exDel_typed : TypedOps exColl exDel :=
  exTypedOps (os := [.delete ⟨(8 : BitVec 8), ⟨0, [6]⟩⟩]) rfl

/-- The query with documents that reads the view `es` and the database `db` panics when its result is
iterated. -/
def IterationPanics (V : TView exColl) (es : OMap ViewEntry) (db : Db) (b : ViewSettings V.key) : Prop :=
  ∃ rs ds, queryWithCollectionDocs V es db b = .ok (rs, ds) ∧ iterDocs rs ds = .error .panic

/-- **C74 violated**: `query_with_docs` reads the view and then the documents.  If a document is deleted
in between, the query succeeds, but iterating over its result panics. -/
theorem C74_violated_missing_document :
    ∃ σ σ' : VSys, ViewRun (exTVSchema .eager) (fun _ => True) (exTV .eager) (some (primFirst 1)) uintNext exStart σ ∧
      UpToDate (exTV .eager) σ ∧ TVExec (exTVSchema .eager) (fun _ => True) exColl σ σ' ∧
      IterationPanics (exTV .eager) (stored (exTV .eager) σ) σ'.db (.new _) := by
  exact ⟨_, _, exTV_run .eager _ (.step (.refl _) (.transaction (tid := 1) exTVOps_typed
    (fun _ _ _ _ => trivial) rfl (Nat.zero_le _))), fun _ => rfl,
    .step (.refl _) (.transaction (tid := 2) exDel_typed (fun _ _ _ _ => trivial) rfl (by decide)),
    _, _, rfl, rfl⟩

def exOneDoc : List Operation := [⟨exC, .insert (some [7]) [5]⟩]
def exOneDel : List Operation := [⟨exC, .delete ⟨[7], ⟨0, [5]⟩⟩⟩]

/-- **C74 violated**, without any concurrency: a lazy view that is queried with documents without being
updated (`AccessPolicy::NoUpdate`) after a document was deleted.  The result cannot be iterated. -/
theorem C74_violated_stale_documents :
    ∃ σ : VSys, ViewRun (exTVSchema .lazy) (fun _ => True) (exTV .lazy) (some (primFirst 1)) uintNext exStart σ ∧
      IterationPanics (exTV .lazy) (stored (exTV .lazy) σ) σ.db (.new _) := by
  refine ⟨_, exTV_run .lazy _ (.step (.step (.step (.step (.step (.step (.refl _)
    (.transaction (tid := 1) (ops := exOneDoc)
      (exTypedOps (os := [.insert (some (7 : BitVec 8)) ([5] : Bytes)]) rfl) (fun _ _ _ _ => trivial) rfl (Nat.zero_le _)))
    (.internal (.begin (v := (exTV .lazy).erase) (by simp [exTVSchema])) rfl))
    (.internal (.scan (pre := []) (post := []) rfl) rfl))
    (.internal (.chunk (pre := []) (post := []) (p := [[7]]) (tid := 2) (bs := [[[7]]]) rfl (by simp)
        (by rw [exChunk.1]; exact .refl _) (by decide) rfl) rfl))
    (.internal (.done (pre := []) (post := []) (by rw [exChunk.2])) rfl))
    (.transaction (tid := 3) (ops := exOneDel)
      (exTypedOps (os := [.delete ⟨(7 : BitVec 8), ⟨0, [5]⟩⟩]) rfl) (fun _ _ _ _ => trivial) rfl (by decide))),
    _, _, rfl, rfl⟩

/-- **C74 violated** (as C34): a limit counts keys, not results, and is ignored for one or several keys;
several keys are answered in ascending order when descending was asked for. -/
theorem C74_violated_limit_and_order :
    ∃ σ, ViewRun (exTVSchema .eager) (fun _ => True) (exTV .eager) (some (primFirst 1)) uintNext exStart σ ∧
      UpToDate (exTV .eager) σ ∧
      exRows (query (exTV .eager) (stored (exTV .eager) σ) { limit := some 1 }) = [(5, 3, 7), (5, 4, 9)] ∧
      exRows (query (exTV .eager) (stored (exTV .eager) σ)
        { key := some (.matches_ (5 : BitVec 8)), limit := some 0 }) = [(5, 3, 7), (5, 4, 9)] ∧
      exRows (query (exTV .eager) (stored (exTV .eager) σ)
        { key := some (.multiple [(6 : BitVec 8), (5 : BitVec 8)]), order := .descending }) =
        [(5, 3, 7), (5, 4, 9), (6, 1, 8)] := by
  refine ⟨_, exTV_run .eager _ (.step (.refl _) (.transaction (tid := 1) exTVOps_typed
    (fun _ _ _ _ => trivial) rfl (Nat.zero_le _))), fun _ => rfl, ?_, ?_, ?_⟩ <;> decide +kernel

/-- A view without reduce function, whose value format accepts an empty byte string. -/
def exTVPlain : TView exColl :=
  { exTV .eager with
    deserialize := fun b => match b with | [x] => some x | _ => some (0 : UInt8)
    reduce := fun _ _ => .unimplemented }

/-- A view without reduce function. -/
def exTVNoReduce : TView exColl := { exTV .eager with reduce := fun _ _ => .unimplemented }

/-- **C74 violated**: the documentation of `reduce` says that a query that asks for a reduction of a
view without reduce function answers an error.  A grouped reduction of nothing answers an empty list;
any other reduction decodes empty byte strings, so the answer is whatever the format of the values makes
of them: an error other than `ReduceUnimplemented`, or a value nobody computed. -/
theorem C74_violated_reduce_unimplemented :
    (Typed.reduceGrouped exTVNoReduce (stored exTVNoReduce exStart) (.new _) = .ok [] ∧
      Typed.reduce exTVNoReduce (stored exTVNoReduce exStart) (.new _) = .unimplemented) ∧
    (∃ σ, VExec { exTSchema with views := [exTVNoReduce.erase] } exStart σ ∧ UpToDate exTVNoReduce σ ∧
      Typed.reduce exTVNoReduce (stored exTVNoReduce σ) (.new _) = .error ∧
      Typed.reduce exTVNoReduce (stored exTVNoReduce σ) { key := some (.matches_ (5 : BitVec 8)) } = .error) ∧
    (∃ σ, VExec { exTSchema with views := [exTVPlain.erase] } exStart σ ∧ UpToDate exTVPlain σ ∧
      Typed.reduce exTVPlain (stored exTVPlain σ) { key := some (.matches_ (5 : BitVec 8)) } = .ok (0 : UInt8) ∧
      Typed.reduceGrouped exTVPlain (stored exTVPlain σ) (.new _) =
        .ok [((5 : BitVec 8), (0 : UInt8)), ((6 : BitVec 8), (0 : UInt8))]) := by
  refine ⟨⟨rfl, rfl⟩, ⟨_, .step (.refl _) (.transaction (tid := 1) (ops := exTVOps) rfl (Nat.zero_le _)),
    fun _ => rfl, rfl, rfl⟩, ⟨_, .step (.refl _) (.transaction (tid := 1) (ops := exTVOps) rfl (Nat.zero_le _)),
    fun _ => rfl, rfl, rfl⟩⟩

/-- A view that emits two keys for a document. -/
def exTVTwo : TView exColl :=
  { exTV .eager with map := fun _ => some [((1 : BitVec 8), (1 : UInt8)), ((2 : BitVec 8), (1 : UInt8))] }

/-- **C74 violated** (as C35): `delete_docs` of everything fails when a document has two mappings. -/
theorem C74_violated_delete_two_keys :
    ∃ σ, VExec { exTSchema with views := [exTVTwo.erase] } exStart σ ∧ UpToDate exTVTwo σ ∧
      Typed.deleteDocs { exTSchema with views := [exTVTwo.erase] } "db" none exTVTwo (stored exTVTwo σ)
        (.new _) σ.db 2 = (.error (.db (.notFound exC [7])), σ.db) := by
  exact ⟨_, .step (.refl _) (.transaction (tid := 1) (ops := exOneDoc) rfl (Nat.zero_le _)),
    fun _ => rfl, rfl⟩

/-- The same view with signed keys. -/
def exTVSigned : TView exColl := { exTV .eager with key := intKey 1 }

/-- **C74 violated** for view keys whose encoding does not sort like the keys (C01): a query for the
range from -1 to 1 does not return the mapping with key 0. -/
theorem C74_violated_signed_range :
    ∃ σ, VExec { exTSchema with views := [exTVSigned.erase] } exStart σ ∧ UpToDate exTVSigned σ ∧
      (∃ r, query exTVSigned (stored exTVSigned σ) { key := some (.matches_ (0 : BitVec 8)) } = .ok [r] ∧
        r.key = (0 : BitVec 8)) ∧
      SelectsBy (intKey 1).lt (some (.range ⟨.included (-1 : BitVec 8), .included (1 : BitVec 8)⟩)) (0 : BitVec 8) ∧
      query exTVSigned (stored exTVSigned σ)
        { key := some (.range ⟨.included (-1 : BitVec 8), .included (1 : BitVec 8)⟩) } = .ok [] := by
  refine ⟨_, .step (.refl _) (.transaction (tid := 1) (ops := [⟨exC, .insert (some [7]) [0]⟩]) rfl (Nat.zero_le _)),
    fun _ => rfl, ⟨_, rfl, rfl⟩, ⟨.inr (by decide), .inr (by decide)⟩, rfl⟩

end Bonsai.Typed
