import Verif.Views.C69c

/-!
# C69: executions of `entry(..)` that do what a caller would not expect, and examples
-/
set_option linter.unusedSimpArgs false
set_option linter.unusedVariables false

namespace Bonsai.Store
open Bonsai Bonsai.Names Bonsai.Query

/-- A name view: the name is the first byte of the contents. -/
def exNamed : View :=
  ⟨exVName, .unique, 0, fun d => some [(d.contents.take 1, [1])], fun _ _ => .unimplemented⟩

/-- A committed transaction. -/
def exDo (v : VSys) (ops : List Operation) : VSys :=
  match prepare (exWith exNamed) v.db.trees ops with
  | .ok (t, ch, _) => v.commit v.db.lastTid (some ch) t
  | .error _ => v

/-- One document, `[1]`, with the name `[65]`. -/
def exOne : VSys := exDo exStart [⟨exC, .insert (some [1]) [65]⟩]

theorem exCollisionFree' (v : View) : CollisionFree (exWith v).digest (fun _ => True) := fun _ _ _ _ h => h

theorem exDo_docs {v : VSys} (ops : List Operation) (h : DocsWF (exWith exNamed).digest (fun _ => True) v.db.trees.docs) :
    DocsWF (exWith exNamed).digest (fun _ => True) (exDo v ops).db.trees.docs := by
  unfold exDo
  split
  · rename_i t ch rs hp
    exact prepare_docsWF (exCollisionFree' _) h (fun _ _ _ _ => trivial) hp
  · exact h

theorem exDo_exec (v : VSys) (ops : List Operation) : VExec (exWith exNamed) v (exDo v ops) := by
  unfold exDo
  split
  · rename_i t ch rs hp
    exact .step (.refl _) (.transaction hp (Nat.le_refl _))
  · exact .refl _

theorem exStart_docs : DocsWF (exWith exNamed).digest (fun _ => True) exStart.db.trees.docs := by
  intro c id d h; cases h

/-- Nobody has called yet. -/
def exIdle (v : VSys) : EntrySys := ⟨v, fun _ => .start⟩

theorem exOne_start : EntryStart (exWith exNamed) (fun _ => True) exNamed (exIdle exOne) :=
  ⟨⟨exStart, exStart_start _, fun _ => rfl, (exDo_exec exStart [⟨exC, .insert (some [1]) [65]⟩] :)⟩,
    (exDo_docs [⟨exC, .insert (some [1]) [65]⟩] exStart_docs :), fun _ => rfl⟩

theorem exEmpty_start : EntryStart (exWith exNamed) (fun _ => True) exNamed (exIdle exStart) :=
  ⟨⟨exStart, exStart_start _, fun _ => rfl, .refl _⟩, exStart_docs, fun _ => rfl⟩

theorem exNamedBy {v : VSys} {key : Bytes} (id : Bytes)
    (h : ((v.docs exNamed).get id).any (fun d => d.contents.take 1 == key) = true) : NamedBy exNamed key id v := by
  cases hg : (v.docs exNamed).get id with
  | none => rw [hg] at h; cases h
  | some d =>
    rw [hg] at h
    simp at h
    exact ⟨d, hg, [1], _, rfl, by simp [h]⟩

/-- What the callers of the examples are given: each appends a byte to the document named `[65]`, or inserts it. -/
def exCall (retry : Nat) (insert : Bool) : EntryCall :=
  ⟨.name [65], if insert then some (none, [65, 7]) else none, some fun _ x => x ++ [8], retry⟩

theorem exCallsIn (calls : Nat → EntryCall) : CallsIn (fun _ => True) calls :=
  fun _ => ⟨fun _ _ _ _ _ => trivial, fun _ _ _ => trivial⟩

/-- Some document has the name at every moment. -/
def SomeNamed (nv : View) (key : Bytes) (v : VSys) : Prop := ∃ id, NamedBy nv key id v

def exInsert1 : Nat → EntryCall := fun i => exCall 0 (i = 1)

/-- **C69 is violated**: at every moment some document has the name, yet one caller is told there is none, and
another, who offered to insert one, gets a violation of the unique view. (The name passes from one document to
another between the read of the view and the read of the document.) -/
theorem C69_violated_missed : ∃ (s : Schema) (nv : View) (calls : Nat → EntryCall) (σ₀ σ : EntrySys)
    (es : List (Option (Nat × EntryEvent))) (key : Bytes) (e : Err), DistinctViews s ∧ nv ∈ s.views ∧ nv.policy = .unique ∧
    EntryStart s (fun _ => True) nv σ₀ ∧ EntryExec s (fun _ => True) nv calls (SomeNamed nv key) σ₀ es σ ∧
    (∀ i, (calls i).ref = .name key) ∧ (calls 1).insert.isSome ∧
    σ.callers 0 = .returned none ∧ σ.callers 1 = .failed e := by
  refine ⟨exWith exNamed, exNamed, exInsert1, exIdle exOne, _, _, [65], _, exDistinct _, by simp [exWith], rfl,
    exOne_start,
    .snoc (.snoc (.snoc (.snoc (.snoc (.snoc (.nil ⟨[1], exNamedBy [1] (by decide +kernel)⟩)
      (.caller (i := 0) (.lookup (key := [65]) rfl)) ⟨[1], exNamedBy [1] (by decide +kernel)⟩)
      (.caller (i := 1) (.lookup (key := [65]) rfl)) ⟨[1], exNamedBy [1] (by decide +kernel)⟩)
      (.transaction (tid := 10) (ops := [⟨exC, .delete ⟨[1], ⟨0, [65]⟩⟩⟩, ⟨exC, .insert (some [2]) [65]⟩])
        (fun _ _ _ _ => trivial) rfl (by decide +kernel)) ⟨[2], exNamedBy [2] (by decide +kernel)⟩)
      (.caller (i := 0) .fetch) ⟨[2], exNamedBy [2] (by decide +kernel)⟩)
      (.caller (i := 1) .fetch) ⟨[2], exNamedBy [2] (by decide +kernel)⟩)
      (.caller (i := 1) (.pushFails (oid := none) (x := [65, 7]) rfl rfl)) ⟨[2], exNamedBy [2] (by decide +kernel)⟩,
    fun _ => rfl, rfl, rfl, rfl⟩

/-- **C69 is violated**: at every moment another document has the name, yet the call updates the document that
has lost it before. -/
theorem C69_violated_renamed : ∃ (s : Schema) (nv : View) (calls : Nat → EntryCall) (σ₀ σ₁ σ₂ : EntrySys)
    (es : List (Option (Nat × EntryEvent))) (key : Bytes) (d d' : Document), DistinctViews s ∧ nv ∈ s.views ∧
    nv.policy = .unique ∧
    EntryStart s (fun _ => True) nv σ₀ ∧ EntryExec s (fun _ => True) nv calls (SomeNamed nv key) σ₀ es σ₁ ∧
    EntryStep s (fun _ => True) nv calls σ₁ (some (0, .updated)) σ₂ ∧
    (∀ i, (calls i).ref = .name key) ∧ (σ₁.v.docs nv).get d.header.id = some d ∧ ¬ HasName nv d key ∧
    d'.header.id = d.header.id ∧ (σ₂.v.docs nv).get d.header.id = some d' ∧ d'.contents ≠ d.contents ∧
    σ₂.callers 0 = .returned (some d') := by
  refine ⟨exWith exNamed, exNamed, exInsert1, exIdle exOne, _, _, _, [65], ⟨⟨[1], ⟨1, [66]⟩⟩, [66]⟩,
    ⟨⟨[1], ⟨2, [66, 8]⟩⟩, [66, 8]⟩, exDistinct _, by simp [exWith], rfl, exOne_start,
    .snoc (.snoc (.snoc (.nil ⟨[1], exNamedBy [1] (by decide +kernel)⟩)
      (.caller (i := 0) (.lookup (key := [65]) rfl)) ⟨[1], exNamedBy [1] (by decide +kernel)⟩)
      (.transaction (tid := 10) (ops := [⟨exC, .overwrite [1] [66]⟩, ⟨exC, .insert (some [2]) [65]⟩])
        (fun _ _ _ _ => trivial) rfl (by decide +kernel)) ⟨[2], exNamedBy [2] (by decide +kernel)⟩)
      (.caller (i := 0) .fetch) ⟨[2], exNamedBy [2] (by decide +kernel)⟩,
    .caller (.accept (tid := 20) rfl rfl (by decide +kernel)), fun _ => rfl, rfl, ?_, rfl, rfl, by decide, rfl⟩
  rintro ⟨y, ms, h1, h2⟩
  cases h1
  simp at h2

/-- **C69 is violated**: the document disappears while the call is retrying; the call returns nothing, although it
was given a document to insert and nobody has the name. -/
theorem C69_violated_deleted_on_retry : ∃ (s : Schema) (nv : View) (calls : Nat → EntryCall) (σ₀ σ : EntrySys)
    (es : List (Option (Nat × EntryEvent))) (key : Bytes), DistinctViews s ∧ nv ∈ s.views ∧ nv.policy = .unique ∧
    EntryStart s (fun _ => True) nv σ₀ ∧ EntryExec s (fun _ => True) nv calls (fun _ => True) σ₀ es σ ∧
    (calls 0).ref = .name key ∧ (calls 0).insert.isSome ∧ NameFree nv key σ.v ∧ σ.callers 0 = .returned none := by
  refine ⟨exWith exNamed, exNamed, fun _ => exCall 1 true, exIdle exOne, _, _, [65], exDistinct _, by simp [exWith], rfl,
    exOne_start,
    .snoc (.snoc (.snoc (.snoc (.snoc (.snoc (.nil trivial)
      (.caller (i := 0) (.lookup (key := [65]) rfl)) trivial)
      (.caller (i := 0) .fetch) trivial)
      (.transaction (tid := 10) (ops := [⟨exC, .overwrite [1] [65, 1]⟩])
        (fun _ _ _ _ => trivial) rfl (by decide +kernel)) trivial)
      (.caller (i := 0) (.conflict rfl rfl rfl)) trivial)
      (.transaction (tid := 20) (ops := [⟨exC, .delete ⟨[1], ⟨1, [65, 1]⟩⟩⟩])
        (fun _ _ _ _ => trivial) rfl (by decide +kernel)) trivial)
      (.caller (i := 0) .reload) trivial,
    rfl, rfl, ?_, rfl⟩
  intro id d h
  cases h

/-- **C69 is violated**: the document disappears before the first attempt; the call fails with "not found", although
it was given a document to insert and nobody has the name. -/
theorem C69_violated_deleted : ∃ (s : Schema) (nv : View) (calls : Nat → EntryCall) (σ₀ σ : EntrySys)
    (es : List (Option (Nat × EntryEvent))) (key : Bytes), DistinctViews s ∧ nv ∈ s.views ∧ nv.policy = .unique ∧
    EntryStart s (fun _ => True) nv σ₀ ∧ EntryExec s (fun _ => True) nv calls (fun _ => True) σ₀ es σ ∧
    (calls 0).ref = .name key ∧ (calls 0).insert.isSome ∧ 0 < (calls 0).retry ∧ NameFree nv key σ.v ∧
    σ.callers 0 = .failed (.notFound nv.name.collection [1]) := by
  refine ⟨exWith exNamed, exNamed, fun _ => exCall 1 true, exIdle exOne, _, _, [65], exDistinct _, by simp [exWith], rfl,
    exOne_start,
    .snoc (.snoc (.snoc (.snoc (.nil trivial)
      (.caller (i := 0) (.lookup (key := [65]) rfl)) trivial)
      (.caller (i := 0) .fetch) trivial)
      (.transaction (tid := 20) (ops := [⟨exC, .delete ⟨[1], ⟨0, [65]⟩⟩⟩])
        (fun _ _ _ _ => trivial) rfl (by decide +kernel)) trivial)
      (.caller (i := 0) (.error rfl rfl rfl)) trivial,
    rfl, rfl, by decide, ?_, rfl⟩
  intro id d h
  cases h

/-- **C69 is violated**: two callers want the document with the name, or else to insert it; one of them inserts it,
the other gets neither but a violation of the unique view. -/
theorem C69_violated_concurrent_insert : ∃ (s : Schema) (nv : View) (calls : Nat → EntryCall) (σ₀ σ : EntrySys)
    (es : List (Option (Nat × EntryEvent))) (key : Bytes) (d : Document) (h1 h2 : Header),
    DistinctViews s ∧ nv ∈ s.views ∧ nv.policy = .unique ∧
    EntryStart s (fun _ => True) nv σ₀ ∧ EntryExec s (fun _ => True) nv calls (fun _ => True) σ₀ es σ ∧
    (∀ i, (calls i).ref = .name key ∧ (calls i).insert.isSome) ∧
    σ.callers 0 = .returned (some d) ∧ HasName nv d key ∧ σ.callers 1 = .failed (.uniqueViolation nv.name h1 h2) := by
  refine ⟨exWith exNamed, exNamed, fun _ => exCall 1 true, exIdle exStart, _, _, [65], _, _, _, exDistinct _,
    by simp [exWith], rfl, exEmpty_start,
    .snoc (.snoc (.snoc (.snoc (.snoc (.snoc (.nil trivial)
      (.caller (i := 0) (.lookup (key := [65]) rfl)) trivial)
      (.caller (i := 1) (.lookup (key := [65]) rfl)) trivial)
      (.caller (i := 0) .fetch) trivial)
      (.caller (i := 1) .fetch) trivial)
      (.caller (i := 0) (.push (oid := none) (x := [65, 7]) (tid := 10) rfl rfl (by decide +kernel))) trivial)
      (.caller (i := 1) (.pushFails (oid := none) (x := [65, 7]) rfl rfl)) trivial,
    fun _ => ⟨rfl, rfl⟩, rfl, ⟨[1], _, rfl, by simp⟩, rfl⟩

/-! ## The hypotheses are met -/

/-- `C69_finds_the_document`, `C69_update_applies`, `C69_conflict_only_if_changed`, `C69_at_most_one_write`: an attempt
is refused, the document is loaded again and updated; it has the name all the time. -/
example : ∃ (σ₁ σ₂ : EntrySys) (es : List (Option (Nat × EntryEvent))),
    EntryExec (exWith exNamed) (fun _ => True) exNamed (fun _ => exCall 1 true) (NamedBy exNamed [65] [1])
      (exIdle exOne) es σ₁ ∧
    EntryStep (exWith exNamed) (fun _ => True) exNamed (fun _ => exCall 1 true) σ₁ (some (0, .updated)) σ₂ ∧
    times 0 .refused es = 1 ∧
    σ₂.callers 0 = .returned (some ⟨⟨[1], ⟨2, [65, 1, 8]⟩⟩, [65, 1, 8]⟩) := by
  refine ⟨_, _, _, .snoc (.snoc (.snoc (.snoc (.snoc (.nil (exNamedBy [1] (by decide +kernel)))
      (.caller (i := 0) (.lookup (key := [65]) rfl)) (exNamedBy [1] (by decide +kernel)))
      (.caller (i := 0) .fetch) (exNamedBy [1] (by decide +kernel)))
      (.transaction (tid := 10) (ops := [⟨exC, .overwrite [1] [65, 1]⟩])
        (fun _ _ _ _ => trivial) rfl (by decide +kernel)) (exNamedBy [1] (by decide +kernel)))
      (.caller (i := 0) (.conflict rfl rfl rfl)) (exNamedBy [1] (by decide +kernel)))
      (.caller (i := 0) .reload) (exNamedBy [1] (by decide +kernel)),
      .caller (.accept (tid := 20) rfl rfl (by decide +kernel)), rfl, rfl⟩

theorem exNameFree : NameFree exNamed [65] exStart := by
  intro id d h; cases h

/-- `C69_inserts_if_free`, `C69_insert_fresh`: the document is inserted. -/
example : ∃ (σ₁ σ₂ : EntrySys) (es : List (Option (Nat × EntryEvent))),
    EntryExec (exWith exNamed) (fun _ => True) exNamed (fun _ => exCall 1 true) (NameFree exNamed [65])
      (exIdle exStart) es σ₁ ∧
    EntryStep (exWith exNamed) (fun _ => True) exNamed (fun _ => exCall 1 true) σ₁ (some (0, .inserted)) σ₂ ∧
    σ₂.callers 0 = .returned (some ⟨⟨[1], ⟨0, [65, 7]⟩⟩, [65, 7]⟩) := by
  refine ⟨_, _, _, .snoc (.snoc (.nil exNameFree)
      (.caller (i := 0) (.lookup (key := [65]) rfl)) exNameFree)
      (.caller (i := 0) .fetch) exNameFree,
      .caller (.push (oid := none) (x := [65, 7]) (tid := 20) rfl rfl (by decide +kernel)), rfl⟩

/-- `C69_by_id`: the document is found by its id and updated. -/
example : ∃ (σ₁ σ₂ : EntrySys) (es : List (Option (Nat × EntryEvent))),
    EntryExec (exWith exNamed) (fun _ => True) exNamed (fun _ => { exCall 1 true with ref := .id [1] }) (fun _ => True)
      (exIdle exOne) es σ₁ ∧
    EntryStep (exWith exNamed) (fun _ => True) exNamed (fun _ => { exCall 1 true with ref := .id [1] }) σ₁
      (some (0, .updated)) σ₂ ∧
    σ₂.callers 0 = .returned (some ⟨⟨[1], ⟨1, [65, 8]⟩⟩, [65, 8]⟩) := by
  refine ⟨_, _, _, .snoc (.nil trivial) (.caller (i := 0) (.get (id := [1]) rfl)) trivial,
      .caller (.accept (tid := 20) rfl rfl (by decide +kernel)), rfl⟩

end Bonsai.Store
