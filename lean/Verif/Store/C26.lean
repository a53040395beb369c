import Verif.Store.Run

/-!
# C26: the document store behaves like a map
-/
set_option linter.unusedVariables false

namespace Bonsai.Store
open Bonsai Bonsai.Names

/-- What a client may ask: run a transaction, or read a document. -/
inductive Request where
  | transaction (tid : Nat) (ops : List Operation)
  | get (c : QName) (id : Bytes)

inductive Answer where
  | done (r : Except Err (List OpResult))
  | found (d : Option Document)

/-- The database answers one request: `applyToRoots` (database.rs:304-370), `getDoc`
(database.rs:1204-1225). -/
def serve (s : Schema) (db : Db) : Request → Answer × Db
  | .transaction tid ops => (.done (applyToRoots s db tid ops).1, (applyToRoots s db tid ops).2)
  | .get c id => (.found (getDoc db c id), db)

def serveAll (s : Schema) : Db → List Request → List Answer × Db
  | db, [] => ([], db)
  | db, q :: qs => ((serve s db q).1 :: (serveAll s (serve s db q).2 qs).1, (serveAll s (serve s db q).2 qs).2)

/-- What the plain map answers.  A failed transaction changes nothing.  Besides the failures of the
map itself a transaction fails if it names a collection outside the schema, if an eager view of one
of its collections rejects it, or if it touches more than 65536 collections. -/
inductive SpecServe (s : Schema) : AbsStore → Request → Answer → AbsStore → Prop
  | ok {a tid ops a' rs} (hk : ∀ op ∈ ops, op.collection ∈ s.collections)
      (h : SpecRun s a ops (.ok (a', rs))) : SpecServe s a (.transaction tid ops) (.done (.ok rs)) a'
  | fail {a tid ops e} (hk : ∀ op ∈ ops, op.collection ∈ s.collections)
      (h : SpecRun s a ops (.error e)) : SpecServe s a (.transaction tid ops) (.done (.error e)) a
  | unknown {a tid ops} (h : ∃ op ∈ ops, op.collection ∉ s.collections) :
      SpecServe s a (.transaction tid ops) (.done (.error .collectionNotFound)) a
  | rejected {a tid ops e} (he : ViewErr e)
      (h : ∃ op ∈ ops, ∃ v ∈ s.views, v.name.collection = op.collection ∧ v.policy.isEager = true) :
      SpecServe s a (.transaction tid ops) (.done (.error e)) a
  | large {a tid ops} (h : TooManyCollections ops) :
      SpecServe s a (.transaction tid ops) (.done (.error .tooLarge)) a
  | get {a c id} : SpecServe s a (.get c id)
      (.found ((a c id).map fun d => ⟨headerOf s.digest id d, d.2⟩)) a

inductive SpecServeAll (s : Schema) : AbsStore → List Request → List Answer → AbsStore → Prop
  | nil (a) : SpecServeAll s a [] [] a
  | cons {a q r a' qs rs a''} (h : SpecServe s a q r a') (hs : SpecServeAll s a' qs rs a'') :
      SpecServeAll s a (q :: qs) (r :: rs) a''

/-- All contents written by the requests are in the set. -/
def RequestsIn (S : Bytes → Prop) (qs : List Request) : Prop :=
  ∀ q ∈ qs, ∀ tid ops, q = .transaction tid ops → Writes S ops

theorem not_noEager {s : Schema} {c : QName} (h : ¬ NoEager s c) :
    ∃ v ∈ s.views, v.name.collection = c ∧ v.policy.isEager = true := by
  unfold NoEager at h
  simp only [Schema.viewsIn, List.mem_filter, decide_eq_true_eq, Classical.not_forall,
    Bool.not_eq_false] at h
  obtain ⟨v, ⟨hv, hc⟩, he⟩ := h
  exact ⟨v, hv, hc, he⟩

theorem collectionsKnown_iff {s ops} :
    collectionsKnown s ops = true ↔ ∀ op ∈ ops, op.collection ∈ s.collections := by
  simp [collectionsKnown]

theorem invalidateChanged_docs {s ch t} : (invalidateChanged s ch t).docs = t.docs := rfl

theorem prepare_refines {s S t ops} (hS : CollisionFree s.digest S) (hwf : DocsWF s.digest S t.docs)
    (hw : Writes S ops) :
    match prepare s t ops with
    | .ok (t', _, rs) => DocsWF s.digest S t'.docs ∧ collectionsKnown s ops = true ∧
        SpecRun s t.abs ops (.ok (t'.abs, rs))
    | .error e => ∀ tid, SpecServe s t.abs (.transaction tid ops) (.done (.error e)) t.abs := by
  unfold prepare
  by_cases hk : collectionsKnown s ops = true
  · rw [if_pos hk]
    have := runOps_refines hS ops ops t ⟨[], []⟩ (fun _ h => h)
      ⟨List.nodup_nil, by simp, by simp⟩ hwf hw
    cases hr : runOps s t ⟨[], []⟩ ops with
    | error e =>
      rw [hr] at this
      simp only at this ⊢
      intro tid
      rcases this with h | ⟨h, op, ho, hn⟩ | ⟨rfl, h⟩
      · exact .fail (collectionsKnown_iff.mp hk) h
      · obtain ⟨v, hv⟩ := not_noEager hn
        exact .rejected h ⟨op, ho, v, hv⟩
      · exact .large h
    | ok p =>
      obtain ⟨t', ch, rs⟩ := p
      rw [hr] at this
      simp only at this ⊢
      exact ⟨this.1, hk, this.2.2⟩
  · rw [if_neg hk]
    simp only
    intro tid
    refine .unknown ?_
    rw [collectionsKnown_iff] at hk
    simpa using hk

theorem serve_refines {s S db q} (hS : CollisionFree s.digest S) (hwf : DocsWF s.digest S db.trees.docs)
    (hw : ∀ tid ops, q = .transaction tid ops → Writes S ops) :
    DocsWF s.digest S (serve s db q).2.trees.docs ∧
      SpecServe s db.trees.abs q (serve s db q).1 (serve s db q).2.trees.abs := by
  cases q with
  | get c id =>
    refine ⟨hwf, ?_⟩
    have : (serve s db (.get c id)).1 =
        .found ((db.trees.abs c id).map fun d => ⟨headerOf s.digest id d, d.2⟩) := by
      simp only [serve, getDoc]
      cases hg : (db.trees.docs c).get id with
      | none => rw [abs_eq, abs_of_none hg]; rfl
      | some d => rw [abs_eq, abs_of_get hg]; simp only [Option.map_some, ← hwf.header hg]
    rw [this]; exact .get
  | transaction tid ops =>
    have := prepare_refines (t := db.trees) hS hwf (hw tid ops rfl)
    simp only [serve, applyToRoots]
    cases hp : prepare s db.trees ops with
    | error e => rw [hp] at this; exact ⟨hwf, this tid⟩
    | ok p =>
      obtain ⟨t', ch, rs⟩ := p
      rw [hp] at this
      exact ⟨this.1, .ok (collectionsKnown_iff.mp this.2.1) this.2.2⟩

theorem serveAll_refines {s S} (hS : CollisionFree s.digest S) : ∀ (qs : List Request) (db : Db),
    DocsWF s.digest S db.trees.docs → RequestsIn S qs →
    SpecServeAll s db.trees.abs qs (serveAll s db qs).1 (serveAll s db qs).2.trees.abs := by
  intro qs
  induction qs with
  | nil => intro db _ _; exact .nil _
  | cons q qs ih =>
    intro db hwf hw
    have h := serve_refines (q := q) hS hwf (fun tid ops e => hw q List.mem_cons_self tid ops e)
    exact .cons h.2 (ih _ h.1 fun q' hq => hw q' (List.mem_cons_of_mem _ hq))

/-- **C26.** Starting from an empty database, every sequence of transactions (of inserts, updates,
overwrites, deletes and checks) and reads is answered as by a plain map from (collection, id) to
(revision, contents), as long as no two different contents written have the same SHA-256. -/
theorem C26_store_is_a_map (s : Schema) (S : Bytes → Prop) (hS : CollisionFree s.digest S)
    (qs : List Request) (hq : RequestsIn S qs) :
    ∃ final, SpecServeAll s .empty qs (serveAll s .empty qs).1 final ∧
      ∀ c id, (getDoc (serveAll s .empty qs).2 c id).map
        (fun d => (d.header.revision.id, d.contents)) = final c id :=
  ⟨_, serveAll_refines hS qs .empty docsWF_empty hq, fun _ _ => rfl⟩

/-- **C26**, without eager views: a transaction within the schema (of at most 65536 collections)
always answers what executing its operations one by one on the map answers. -/
theorem C26_exact_without_eager_views (s : Schema) (S : Bytes → Prop)
    (hS : CollisionFree s.digest S) (hlazy : ∀ v ∈ s.views, v.policy = .lazy)
    (hcol : s.collections.length ≤ 65536) (qs : List Request) (hq : RequestsIn S qs)
    (tid : Nat) (ops : List Operation) (hw : Writes S ops)
    (hk : ∀ op ∈ ops, op.collection ∈ s.collections) :
    match (applyToRoots s (serveAll s .empty qs).2 tid ops).1 with
    | .ok rs => SpecRun s (serveAll s .empty qs).2.trees.abs ops
        (.ok ((applyToRoots s (serveAll s .empty qs).2 tid ops).2.trees.abs, rs))
    | .error e => SpecRun s (serveAll s .empty qs).2.trees.abs ops (.error e) ∧
        (applyToRoots s (serveAll s .empty qs).2 tid ops).2 = (serveAll s .empty qs).2 := by
  have hwf : ∀ (qs : List Request) (db : Db), DocsWF s.digest S db.trees.docs → RequestsIn S qs →
      DocsWF s.digest S (serveAll s db qs).2.trees.docs := by
    intro qs
    induction qs with
    | nil => intro db h _; exact h
    | cons q qs ih =>
      intro db h hw
      exact ih _ (serve_refines hS h (fun tid ops e => hw q List.mem_cons_self tid ops e)).1
        fun q' hq => hw q' (List.mem_cons_of_mem _ hq)
  have hwf := hwf qs .empty docsWF_empty hq
  generalize hdb : (serveAll s .empty qs).2 = db at hwf ⊢
  have h := prepare_refines (t := db.trees) hS hwf hw
  simp only [applyToRoots]
  cases hp : prepare s db.trees ops with
  | ok p => rw [hp] at h; exact h.2.2
  | error e =>
    rw [hp] at h
    simp only at h ⊢
    refine ⟨?_, trivial⟩
    cases h tid with
    | fail _ h => exact h
    | unknown h' => obtain ⟨op, ho, hn⟩ := h'; exact absurd (hk op ho) hn
    | rejected _ h =>
      obtain ⟨op, ho, v, hv, _, he⟩ := h
      rw [hlazy v hv] at he; cases he
    | large h' =>
      obtain ⟨l, hn, hl, hc⟩ := h'
      have : l.length ≤ s.collections.length := by
        have hsub : l ⊆ s.collections := by
          intro c hcm; obtain ⟨op, ho, rfl⟩ := hc c hcm; exact hk op ho
        exact nodup_subset_length hn hsub
      omega

/-! A concrete case: a transaction with two inserts and an update of the first, then a read. -/

section Example

/-- A schema with one collection, no views and the identity as digest. -/
def exSchema : Schema where
  digest := id
  collections := [⟨"a", "c"⟩]
  nextId := fun _ last => some ((last.getD []) ++ [1])
  views := []

def exC : QName := ⟨"a", "c"⟩

theorem exCollisionFree : CollisionFree exSchema.digest (fun _ => True) := fun _ _ _ _ h => h

example : (serveAll exSchema .empty
    [.transaction 1 [⟨exC, .insert (some [7]) [1]⟩, ⟨exC, .insert none [2]⟩,
      ⟨exC, .update ⟨[7], ⟨0, [1]⟩⟩ [3]⟩], .get exC [7]]).1
    = [.done (.ok [.updated exC ⟨[7], ⟨0, [1]⟩⟩, .updated exC ⟨[7, 1], ⟨0, [2]⟩⟩,
        .updated exC ⟨[7], ⟨1, [3]⟩⟩]), .found (some ⟨⟨[7], ⟨1, [3]⟩⟩, [3]⟩)] := by rfl

example : RequestsIn (fun _ => True) [.transaction 1 [⟨exC, .insert (some [7]) [1]⟩]] := by
  intro _ _ _ _ _ _ _ _ _; trivial

end Example

end Bonsai.Store
