import Verif.Views.Txn

/-!
# Transactions, mapping jobs and queries running concurrently

The committed state of a database changes only by atomic commits (C20): document transactions,
chunks of mapping jobs, and commits that touch neither documents nor views (key-value batches, other
administration).  Mapping jobs read the last transaction id, then the list of invalidated documents,
then map it chunk by chunk, each chunk in its own transaction, and finally report the transaction id
they read.  Anything may happen between these steps.

Assumed of `nebari` (see DESIGN.md): transaction ids grow in commit order, `last_transaction_id`
returns the id of the last committed transaction, reading one tree is atomic, and a transaction has
its trees locked exclusively.
-/
set_option linter.unusedSimpArgs false

namespace Bonsai.Store
open Bonsai Bonsai.Names

/-- `last_transaction_id`, database.rs:1073-1079 (`TransactionManager::current_transaction_id`):
`0` stands for `None`, otherwise the id of the last committed transaction plus one. -/
def Db.lastTid (db : Db) : Nat :=
  match db.log.getLast? with
  | some e => e.1 + 1
  | none => 0

/-- A running `Mapper` job, mapper.rs:38-100: the view, the transaction id it read at its start
(mapper.rs:77-80), and the documents still to map (`none`: not read yet; mapper.rs:113-117). -/
structure MapJob where
  view : View
  tid : Nat
  pending : Option (List Bytes)

/-- `results`: the transaction ids reported by finished mapping jobs of each view: what `job.receive`
returns and `mark_view_updated` stores (tasks.rs:157-168); kept in memory only. `past` is ghost state:
all committed states so far with the transaction id that was the last one then. -/
structure VSys where
  db : Db
  jobs : List MapJob
  results : VName → List Nat
  past : List (Nat × Trees)

/-- `CHUNK_SIZE`, mapper.rs:111. -/
@[irreducible] def chunkSize : Nat := 100000

/-- The ids a chunk takes from the pending list: `drain(len.saturating_sub(CHUNK_SIZE)..)`,
mapper.rs:134-136. -/
def chunkIds (pending : List Bytes) : List Bytes := pending.drop (pending.length - chunkSize)

/-- What stays pending, mapper.rs:134-136. -/
def chunkRest (pending : List Bytes) : List Bytes := pending.take (pending.length - chunkSize)

/-- `invalidated_entries.modify(document_ids, Remove)`, mapper.rs:151-152. -/
def removeAll (m : OMap Unit) (ids : List Bytes) : OMap Unit := ids.foldl (fun m id => m.remove id) m

/-- The state committed by a chunk, mapper.rs:119-155. -/
def chunkTrees (t : Trees) (v : View) (ids : List Bytes) (es : OMap ViewEntry)
    (dm : OMap (List Bytes)) : Trees :=
  { t with
    entries := upd t.entries v.name es
    docMap := upd t.docMap v.name dm
    invalidated := upd t.invalidated v.name (removeAll (t.invalidated v.name) ids) }

/-- Commit new trees under a transaction id. -/
def VSys.commit (σ : VSys) (tid : Nat) (data : Option Changes) (t : Trees) : VSys :=
  { σ with
    db := ⟨t, σ.db.log ++ [(tid, data)]⟩
    past := σ.past ++ [(tid + 1, t)] }

/-- One step of anything in the process. -/
inductive VStep (s : Schema) : VSys → VSys → Prop
  /-- A document transaction commits (a failing one changes nothing: C20). -/
  | transaction {σ tid ops t ch rs} (hp : prepare s σ.db.trees ops = .ok (t, ch, rs))
      (htid : σ.db.lastTid ≤ tid) : VStep s σ (σ.commit tid (some ch) t)
  /-- Something else commits: documents and views are not touched. -/
  | other {σ tid} (htid : σ.db.lastTid ≤ tid) : VStep s σ (σ.commit tid none σ.db.trees)
  /-- A mapping job starts and reads the last transaction id. -/
  | begin {σ v} (hv : v ∈ s.views) :
      VStep s σ { σ with jobs := σ.jobs ++ [⟨v, σ.db.lastTid, none⟩] }
  /-- The job reads the invalidated documents. -/
  | scan {σ pre post v m} (hj : σ.jobs = pre ++ ⟨v, m, none⟩ :: post) :
      VStep s σ { σ with
        jobs := pre ++ ⟨v, m, some (σ.db.trees.invalidated v.name).keys⟩ :: post }
  /-- The job maps and commits a chunk: batches in any split and order (mapper.rs:180-343). -/
  | chunk {σ pre post v m p tid bs es dm} (hj : σ.jobs = pre ++ ⟨v, m, some p⟩ :: post)
      (hp : p ≠ []) (hb : bs.flatten.Perm (chunkIds p)) (htid : σ.db.lastTid ≤ tid)
      (hm : mapBatches v (σ.db.trees.docs v.name.collection) bs
        (σ.db.trees.entries v.name, σ.db.trees.docMap v.name) = .ok (es, dm)) :
      VStep s σ { σ.commit tid none (chunkTrees σ.db.trees v (chunkIds p) es dm) with
        jobs := pre ++ ⟨v, m, some (chunkRest p)⟩ :: post }
  /-- The job is done: it reports its transaction id and marks the view updated. -/
  | done {σ pre post v m} (hj : σ.jobs = pre ++ ⟨v, m, some []⟩ :: post) :
      VStep s σ { σ with
        jobs := pre ++ post
        results := upd σ.results v.name (σ.results v.name ++ [m]) }
  /-- The job fails; nothing is committed. -/
  | fail {σ pre post j} (hj : σ.jobs = pre ++ j :: post) : VStep s σ { σ with jobs := pre ++ post }
  /-- The process stops or crashes and starts again: only committed state survives. -/
  | restart {σ} : VStep s σ { σ with jobs := [], results := fun _ => [] }

inductive VExec (s : Schema) : VSys → VSys → Prop
  | refl (σ) : VExec s σ σ
  | step {σ σ' σ''} (h : VExec s σ σ') (hs : VStep s σ' σ'') : VExec s σ σ''

theorem VExec.trans {s : Schema} {a b c : VSys} (h1 : VExec s a b) (h2 : VExec s b c) : VExec s a c := by
  induction h2 with
  | refl => exact h1
  | step _ hs ih => exact .step ih hs

/-- A system in which a view starts: the view is empty and every document of its collection is
marked for mapping (a fresh database, or what the integrity scan of a new or outdated view leaves). -/
structure VStart (v : View) (σ : VSys) : Prop where
  jobs : σ.jobs = []
  results : σ.results = fun _ => []
  past : σ.past = [(σ.db.lastTid, σ.db.trees)]
  own : AllOwn σ.db.trees
  entries : σ.db.trees.entries v.name = .empty
  docMap : σ.db.trees.docMap v.name = .empty
  invalidated : ∀ id, ((σ.db.trees.docsOf v).get id).isSome →
    ((σ.db.trees.invalidated v.name).get id).isSome
  /-- no transaction, no documents -/
  noDocs : σ.db.lastTid = 0 → ∀ id, (σ.db.trees.docsOf v).get id = none

/-! ## The invariant -/

/-- The view shows `id` as it was in some committed state at or after transaction `k`. -/
def FreshSince (v : View) (σ : VSys) (k : Nat) (id : Bytes) : Prop :=
  ∃ p ∈ σ.past, k ≤ p.1 ∧ Shows v (σ.db.trees.entries v.name) id ((p.2.docsOf v).get id)

structure VSysInv (v : View) (σ : VSys) : Prop where
  own : AllOwn σ.db.trees
  view : VInv v σ.db.trees
  cur : σ.past.getLast? = some (σ.db.lastTid, σ.db.trees)
  sorted : σ.past.Pairwise fun a b => a.1 < b.1
  jobTid : ∀ j ∈ σ.jobs, j.tid ≤ σ.db.lastTid
  job : ∀ j ∈ σ.jobs, j.view = v → ∀ p, j.pending = some p →
    p.Nodup ∧ ∀ id, id ∉ p → FreshSince v σ j.tid id
  result : ∀ m ∈ σ.results v.name, ∀ id, FreshSince v σ m id

theorem mapBatches_spec {v : View} {docs : OMap Document} (hown : OwnIds docs) :
    ∀ {bs : List (List Bytes)} {es es' : OMap ViewEntry} {dm dm' : OMap (List Bytes)},
    mapBatches v docs bs (es, dm) = .ok (es', dm') → ViewWF es → bs.flatten.Nodup →
    (∀ id, Recorded es dm id) →
    ViewWF es' ∧ (∀ id, Recorded es' dm' id) ∧
      (∀ id ∈ bs.flatten, Shows v es' id (docs.get id)) ∧
      (∀ id, id ∉ bs.flatten → ∀ key, found es' key id = found es key id) := by
  intro bs
  induction bs with
  | nil =>
    intro es es' dm dm' h hwf _ hr
    cases h
    exact ⟨hwf, hr, by simp, by simp⟩
  | cons b bs ih =>
    intro es es' dm dm' h hwf hnd hr
    simp only [List.flatten_cons, List.nodup_append] at hnd
    obtain ⟨hn1, hn2, hdis⟩ := hnd
    simp only [mapBatches] at h
    split at h
    · cases h
    · rename_i st hb
      obtain ⟨es1, dm1⟩ := st
      obtain ⟨w, hin, hout⟩ := mapBatch_spec hb hwf hown hn1 (fun id _ => hr id)
      have hr1 : ∀ id, Recorded es1 dm1 id := by
        intro id
        by_cases hi : id ∈ b
        · exact (hin id hi).2
        · obtain ⟨a, c⟩ := hout id hi
          exact recorded_congr (hr id) a c
      obtain ⟨w', hr', hin', hout'⟩ := ih h w hn2 hr1
      refine ⟨w', hr', ?_, ?_⟩
      · intro id hi
        simp only [List.flatten_cons, List.mem_append] at hi
        by_cases h2 : id ∈ bs.flatten
        · exact hin' id h2
        · rcases hi with hi | hi
          · have := (hin id hi).1
            exact ⟨this.1, fun key => by rw [hout' id h2 key]; exact this.2 key⟩
          · exact absurd hi h2
      · intro id hi key
        simp only [List.flatten_cons, List.mem_append, not_or] at hi
        rw [hout' id hi.2 key, (hout id hi.1).1 key]

theorem removeAll_get (ids : List Bytes) (m : OMap Unit) (id : Bytes) :
    (removeAll m ids).get id = if id ∈ ids then none else m.get id := by
  unfold removeAll
  induction ids generalizing m with
  | nil => simp
  | cons x ids ih =>
    simp only [List.foldl_cons, ih, OMap.get_remove, List.mem_cons]
    by_cases h1 : id ∈ ids
    · simp [h1]
    · by_cases h2 : x = id
      · subst h2; simp
      · have : id ≠ x := fun e => h2 e.symm
        simp [h1, h2, this]

/-- A chunk keeps the invariant. -/
theorem chunk_view {v w : View} (hname : w.name = v.name → w = v) {t : Trees} {ids : List Bytes}
    {bs : List (List Bytes)} {es : OMap ViewEntry} {dm : OMap (List Bytes)}
    (ho : AllOwn t) (hi : VInv v t) (hnd : ids.Nodup) (hb : bs.flatten.Perm ids)
    (hm : mapBatches w (t.docs w.name.collection) bs (t.entries w.name, t.docMap w.name) =
      .ok (es, dm)) :
    let t' := chunkTrees t w ids es dm
    VInv v t' ∧ (∀ id, (∀ key, found (t'.entries v.name) key id = found (t.entries v.name) key id) ∨
        Shows v (t'.entries v.name) id ((t'.docsOf v).get id)) ∧
      (w = v → ∀ id ∈ ids, Shows v (t'.entries v.name) id ((t'.docsOf v).get id)) := by
  intro t'
  by_cases hw : w = v
  · subst hw
    obtain ⟨h1, h2, h3, h4⟩ := mapBatches_spec (ho _) hm hi.1.1 (hb.nodup_iff.mpr hnd) hi.1.2
    have e1 : t'.entries w.name = es := upd_self _ _ _
    have e2 : t'.docMap w.name = dm := upd_self _ _ _
    have e3 : t'.invalidated w.name = removeAll (t.invalidated w.name) ids := upd_self _ _ _
    refine ⟨⟨⟨by rw [e1]; exact h1, by rw [e1, e2]; exact h2⟩, ?_⟩, ?_, ?_⟩
    · intro id hn
      rw [e3, removeAll_get] at hn
      by_cases hin : id ∈ bs.flatten
      · rw [e1]; exact h3 id hin
      · have hn' : id ∉ ids := fun hc => hin (hb.mem_iff.mpr hc)
        rw [if_neg hn'] at hn
        have := hi.2 id hn
        rw [e1]
        exact ⟨this.1, fun key => by rw [h4 id hin key]; exact this.2 key⟩
    · intro id
      rw [e1]
      by_cases hin : id ∈ bs.flatten
      · exact .inr (h3 id hin)
      · exact .inl (h4 id hin)
    · intro _ id hid
      rw [e1]
      exact h3 id (hb.mem_iff.mpr hid)
  · have hne : v.name ≠ w.name := fun e => hw (hname e.symm)
    have e1 : t'.entries v.name = t.entries v.name := upd_ne _ _ hne
    have e2 : t'.docMap v.name = t.docMap v.name := upd_ne _ _ hne
    have e3 : t'.invalidated v.name = t.invalidated v.name := upd_ne _ _ hne
    refine ⟨⟨⟨by rw [e1]; exact hi.1.1, by rw [e1, e2]; exact hi.1.2⟩, ?_⟩, ?_, fun e => absurd e hw⟩
    · intro id hn
      rw [e3] at hn
      rw [e1]; exact hi.2 id hn
    · intro id
      exact .inl fun key => by rw [e1]

theorem lastTid_commit (σ : VSys) (tid : Nat) (d : Option Changes) (t : Trees) :
    (σ.commit tid d t).db.lastTid = tid + 1 := by
  simp [VSys.commit, Db.lastTid]

/-- Committing a state that keeps the invariant and tracks documents. -/
theorem commit_fresh {v : View} {σ : VSys} {tid : Nat} {d : Option Changes} {t : Trees}
    {k : Nat} {id : Bytes} (hk : k ≤ tid + 1)
    (htr : (∀ key, found (t.entries v.name) key id = found (σ.db.trees.entries v.name) key id) ∨
        Shows v (t.entries v.name) id ((t.docsOf v).get id))
    (hf : FreshSince v σ k id) : FreshSince v (σ.commit tid d t) k id := by
  rcases htr with h | h
  · obtain ⟨p, hp, hkp, hs⟩ := hf
    refine ⟨p, by simp [VSys.commit, hp], hkp, hs.1, ?_⟩
    intro key
    show found (t.entries v.name) key id = _
    rw [h]; exact hs.2 key
  · exact ⟨(tid + 1, t), by simp [VSys.commit], hk, h⟩

theorem chunkIds_rest (p : List Bytes) : chunkRest p ++ chunkIds p = p := List.take_append_drop _ _

theorem past_bound {v : View} {σ : VSys} (h : VSysInv v σ) {p : Nat × Trees} (hp : p ∈ σ.past) :
    p.1 ≤ σ.db.lastTid := by
  obtain ⟨l, hl⟩ := List.getLast?_eq_some_iff.mp h.cur
  have hs := h.sorted
  rw [hl] at hs hp
  rw [List.mem_append, List.mem_singleton] at hp
  rcases hp with hp | rfl
  · exact Nat.le_of_lt ((List.pairwise_append.mp hs).2.2 p hp (σ.db.lastTid, σ.db.trees) (by simp))
  · exact Nat.le_refl _

theorem VSysInv.commit {v : View} {σ : VSys} (h : VSysInv v σ) {tid : Nat} {d : Option Changes}
    {t : Trees} (htid : σ.db.lastTid ≤ tid) (ho : AllOwn t) (hi : VInv v t)
    (htr : ∀ id, (∀ key, found (t.entries v.name) key id =
        found (σ.db.trees.entries v.name) key id) ∨
      Shows v (t.entries v.name) id ((t.docsOf v).get id)) : VSysInv v (σ.commit tid d t) where
  own := ho
  view := hi
  cur := by
    simp only [VSys.commit, Db.lastTid, List.getLast?_append, List.getLast?_singleton,
      Option.some_or]
  sorted := by
    refine List.pairwise_append.mpr ⟨h.sorted, by simp, ?_⟩
    intro a ha b hb
    simp only [List.mem_singleton] at hb
    subst hb
    have := past_bound h ha
    exact Nat.lt_succ_of_le (Nat.le_trans this htid)
  jobTid := by
    intro j hj
    have := h.jobTid j hj
    rw [lastTid_commit]
    omega
  job := by
    intro j hj hv p hp
    obtain ⟨h1, h2⟩ := h.job j hj hv p hp
    refine ⟨h1, fun id hid => commit_fresh ?_ (htr id) (h2 id hid)⟩
    have := h.jobTid j hj
    omega
  result := by
    intro m hm id
    obtain ⟨p, hp, hk, hs⟩ := h.result m hm id
    refine commit_fresh ?_ (htr id) ⟨p, hp, hk, hs⟩
    have := past_bound h hp
    omega

theorem fresh_now {v : View} {σ : VSys} (h : VSysInv v σ) {id : Bytes} {k : Nat}
    (hk : k ≤ σ.db.lastTid)
    (hs : Shows v (σ.db.trees.entries v.name) id ((σ.db.trees.docsOf v).get id)) :
    FreshSince v σ k id := ⟨_, List.mem_of_getLast? h.cur, hk, hs⟩

theorem distinct_inj {s : Schema} (h : DistinctViews s) {a b : View} (ha : a ∈ s.views)
    (hb : b ∈ s.views) (e : a.name = b.name) : a = b :=
  updateEagerViews_other.inj_of_nodup_map h ha hb e

/-- Running jobs are for views of the schema. -/
def JobsKnown (s : Schema) (σ : VSys) : Prop := ∀ j ∈ σ.jobs, j.view ∈ s.views

theorem vstep_known {s : Schema} {σ σ' : VSys} (h : JobsKnown s σ) (hs : VStep s σ σ') :
    JobsKnown s σ' := by
  unfold JobsKnown at *
  cases hs with
  | transaction => exact h
  | other => exact h
  | begin hv =>
    intro j hj
    simp only [List.mem_append, List.mem_singleton] at hj
    rcases hj with hj | rfl
    · exact h j hj
    · exact hv
  | @scan pre post w m hj =>
    rw [hj] at h
    intro j hj
    simp only [List.mem_append, List.mem_cons] at hj h
    rcases hj with hj | rfl | hj
    · exact h j (.inl hj)
    · exact h ⟨w, m, none⟩ (.inr (.inl rfl))
    · exact h j (.inr (.inr hj))
  | @chunk pre post w m p tid bs es dm hj =>
    rw [hj] at h
    intro j hj
    simp only [List.mem_append, List.mem_cons] at hj h
    rcases hj with hj | rfl | hj
    · exact h j (.inl hj)
    · exact h ⟨w, m, some p⟩ (.inr (.inl rfl))
    · exact h j (.inr (.inr hj))
  | done hj =>
    rw [hj] at h
    intro j hj
    simp only [List.mem_append, List.mem_cons] at hj h
    rcases hj with hj | hj
    · exact h j (.inl hj)
    · exact h j (.inr (.inr hj))
  | fail hj =>
    rw [hj] at h
    intro j hj
    simp only [List.mem_append, List.mem_cons] at hj h
    rcases hj with hj | hj
    · exact h j (.inl hj)
    · exact h j (.inr (.inr hj))
  | restart => intro j hj; simp at hj

theorem vstep_inv {s : Schema} (hdv : DistinctViews s) {v : View} (hv : v ∈ s.views) {σ σ' : VSys}
    (h : VSysInv v σ) (hk : JobsKnown s σ) (hs : VStep s σ σ') : VSysInv v σ' := by
  cases hs with
  | transaction hp htid =>
    obtain ⟨h1, h2, h3⟩ := prepare_view hdv hv hp h.own h.view
    exact h.commit htid h1 h2 h3
  | other htid => exact h.commit htid h.own h.view (fun _ => .inl fun _ => rfl)
  | begin hw =>
    refine ⟨h.own, h.view, h.cur, h.sorted, ?_, ?_, h.result⟩
    · intro j hj
      simp only [List.mem_append, List.mem_singleton] at hj
      rcases hj with hj | rfl
      · exact h.jobTid j hj
      · exact Nat.le_refl _
    · intro j hj hjv p hp
      simp only [List.mem_append, List.mem_singleton] at hj
      rcases hj with hj | rfl
      · exact h.job j hj hjv p hp
      · cases hp
  | @scan pre post w m hj =>
    have hmem : ∀ j, j ∈ pre ∨ j ∈ post → j ∈ σ.jobs := by
      intro j hh; rw [hj]; simp only [List.mem_append, List.mem_cons]
      rcases hh with hh | hh
      · exact .inl hh
      · exact .inr (.inr hh)
    have hself : (⟨w, m, none⟩ : MapJob) ∈ σ.jobs := by rw [hj]; simp
    refine ⟨h.own, h.view, h.cur, h.sorted, ?_, ?_, h.result⟩
    · intro j hj'
      simp only [List.mem_append, List.mem_cons] at hj'
      rcases hj' with hj' | rfl | hj'
      · exact h.jobTid j (hmem j (.inl hj'))
      · exact h.jobTid ⟨w, m, none⟩ hself
      · exact h.jobTid j (hmem j (.inr hj'))
    · intro j hj' hjv p hp
      simp only [List.mem_append, List.mem_cons] at hj'
      rcases hj' with hj' | rfl | hj'
      · exact h.job j (hmem j (.inl hj')) hjv p hp
      · cases hp
        simp only at hjv
        subst hjv
        refine ⟨OMap.keys_nodup _, ?_⟩
        intro id hid
        refine fresh_now h (h.jobTid ⟨_, m, none⟩ hself) (h.view.2 id ?_)
        rw [← not_isSome_none, ← OMap.mem_keys_iff]
        exact hid
      · exact h.job j (hmem j (.inr hj')) hjv p hp
  | @chunk pre post w m p tid bs es dm hj hp hb htid hm =>
    have hmem : ∀ j, j ∈ pre ∨ j ∈ post → j ∈ σ.jobs := by
      intro j hh; rw [hj]; simp only [List.mem_append, List.mem_cons]
      rcases hh with hh | hh
      · exact .inl hh
      · exact .inr (.inr hh)
    have hself : (⟨w, m, some p⟩ : MapJob) ∈ σ.jobs := by rw [hj]; simp
    have hw := hk _ hself
    simp only at hw
    have hjt := h.jobTid _ hself
    by_cases hwv : w = v
    · subst hwv
      obtain ⟨hpn, hpf⟩ := h.job _ hself rfl p rfl
      have hnd : (chunkIds p).Nodup := List.Nodup.sublist (List.drop_sublist _ _) hpn
      obtain ⟨c1, c2, c3⟩ := chunk_view (v := w) (w := w) (fun _ => rfl) h.own h.view hnd hb hm
      have hc := h.commit (d := none) htid
        (t := chunkTrees σ.db.trees w (chunkIds p) es dm) h.own c1 c2
      refine ⟨hc.own, hc.view, hc.cur, hc.sorted, ?_, ?_, hc.result⟩
      · intro j hj'
        simp only [List.mem_append, List.mem_cons] at hj'
        rcases hj' with hj' | rfl | hj'
        · exact hc.jobTid j (hmem j (.inl hj'))
        · exact hc.jobTid ⟨w, m, some p⟩ hself
        · exact hc.jobTid j (hmem j (.inr hj'))
      · intro j hj' hjv q hq
        simp only [List.mem_append, List.mem_cons] at hj'
        rcases hj' with hj' | rfl | hj'
        · exact hc.job j (hmem j (.inl hj')) hjv q hq
        · cases hq
          refine ⟨List.Nodup.sublist (List.take_sublist _ _) hpn, ?_⟩
          intro id hid
          by_cases hin : id ∈ chunkIds p
          · refine ⟨_, List.mem_of_getLast? hc.cur, ?_, c3 rfl id hin⟩
            exact hc.jobTid ⟨w, m, some p⟩ hself
          · have hnp : id ∉ p := by
              rw [← chunkIds_rest p, List.mem_append, not_or]
              exact ⟨hid, hin⟩
            refine commit_fresh ?_ (c2 id) (hpf id hnp)
            simp only at hjt ⊢
            omega
        · exact hc.job j (hmem j (.inr hj')) hjv q hq
    · -- a job of another view
      have hne : v.name ≠ w.name := fun e => hwv (distinct_inj hdv hw hv e.symm)
      have e1 : (chunkTrees σ.db.trees w (chunkIds p) es dm).entries v.name =
          σ.db.trees.entries v.name := upd_ne _ _ hne
      have e2 : (chunkTrees σ.db.trees w (chunkIds p) es dm).docMap v.name =
          σ.db.trees.docMap v.name := upd_ne _ _ hne
      have e3 : (chunkTrees σ.db.trees w (chunkIds p) es dm).invalidated v.name =
          σ.db.trees.invalidated v.name := upd_ne _ _ hne
      have c1 : VInv v (chunkTrees σ.db.trees w (chunkIds p) es dm) := by
        refine ⟨⟨by rw [e1]; exact h.view.1.1, by rw [e1, e2]; exact h.view.1.2⟩, ?_⟩
        intro id hn
        rw [e3] at hn
        rw [e1]; exact h.view.2 id hn
      have hc := h.commit (d := none) htid
        (t := chunkTrees σ.db.trees w (chunkIds p) es dm) h.own c1
        (fun id => .inl fun key => by rw [e1])
      refine ⟨hc.own, hc.view, hc.cur, hc.sorted, ?_, ?_, hc.result⟩
      · intro j hj'
        simp only [List.mem_append, List.mem_cons] at hj'
        rcases hj' with hj' | rfl | hj'
        · exact hc.jobTid j (hmem j (.inl hj'))
        · exact hc.jobTid ⟨w, m, some p⟩ hself
        · exact hc.jobTid j (hmem j (.inr hj'))
      · intro j hj' hjv q hq
        simp only [List.mem_append, List.mem_cons] at hj'
        rcases hj' with hj' | rfl | hj'
        · exact hc.job j (hmem j (.inl hj')) hjv q hq
        · exact absurd hjv hwv
        · exact hc.job j (hmem j (.inr hj')) hjv q hq
  | @done pre post w m hj =>
    have hmem : ∀ j, j ∈ pre ∨ j ∈ post → j ∈ σ.jobs := by
      intro j hh; rw [hj]; simp only [List.mem_append, List.mem_cons]
      rcases hh with hh | hh
      · exact .inl hh
      · exact .inr (.inr hh)
    have hself : (⟨w, m, some []⟩ : MapJob) ∈ σ.jobs := by rw [hj]; simp
    refine ⟨h.own, h.view, h.cur, h.sorted, ?_, ?_, ?_⟩
    · intro j hj'
      exact h.jobTid j (hmem j (List.mem_append.mp hj'))
    · intro j hj'
      exact h.job j (hmem j (List.mem_append.mp hj'))
    · intro m' hm' id
      simp only at hm'
      by_cases hwv : w.name = v.name
      · have hw := hk _ hself
        have hwv' := distinct_inj hdv hw hv hwv
        subst hwv'
        rw [upd_self, List.mem_append, List.mem_singleton] at hm'
        rcases hm' with hm' | rfl
        · exact h.result m' hm' id
        · exact (h.job _ hself rfl [] rfl).2 id (by simp)
      · have : v.name ≠ w.name := fun e => hwv e.symm
        rw [upd_ne _ _ this] at hm'
        exact h.result m' hm' id
  | @fail pre post j hj =>
    have hmem : ∀ j, j ∈ pre ∨ j ∈ post → j ∈ σ.jobs := by
      intro j hh; rw [hj]; simp only [List.mem_append, List.mem_cons]
      rcases hh with hh | hh
      · exact .inl hh
      · exact .inr (.inr hh)
    refine ⟨h.own, h.view, h.cur, h.sorted, ?_, ?_, h.result⟩
    · intro j hj'
      exact h.jobTid j (hmem j (List.mem_append.mp hj'))
    · intro j hj'
      exact h.job j (hmem j (List.mem_append.mp hj'))
  | restart =>
    refine ⟨h.own, h.view, h.cur, h.sorted, ?_, ?_, ?_⟩
    · intro j hj'; simp at hj'
    · intro j hj'; simp at hj'
    · intro m hm; simp at hm

theorem shows_empty_none (v : View) (id : Bytes) : Shows v .empty id none := by
  refine ⟨by simp, ?_⟩
  intro key
  simp [found, expect]

theorem vstart_inv {v : View} {σ : VSys} (h : VStart v σ) : VSysInv v σ where
  own := h.own
  view := by
    refine ⟨⟨?_, ?_⟩, ?_⟩
    · intro key e he
      rw [h.entries] at he
      simp at he
    · intro id key
      rw [h.entries, h.docMap]
      simp [found]
    · intro id hn
      have : (σ.db.trees.docsOf v).get id = none := by
        rw [← not_isSome_none]
        intro hc
        have := h.invalidated id hc
        rw [hn] at this
        cases this
      rw [h.entries, this]
      exact shows_empty_none v id
  cur := by rw [h.past]; rfl
  sorted := by rw [h.past]; simp
  jobTid := by intro j hj; rw [h.jobs] at hj; simp at hj
  job := by intro j hj; rw [h.jobs] at hj; simp at hj
  result := by intro m hm; rw [h.results] at hm; simp at hm

theorem vexec_inv {s : Schema} (hdv : DistinctViews s) {v : View} (hv : v ∈ s.views) {σ σ' : VSys}
    (h : VSysInv v σ) (hk : JobsKnown s σ) (he : VExec s σ σ') : VSysInv v σ' ∧ JobsKnown s σ' := by
  induction he with
  | refl => exact ⟨h, hk⟩
  | step _ hs ih => exact ⟨vstep_inv hdv hv ih.1 ih.2 hs, vstep_known ih.2 hs⟩

theorem VStart.known {s : Schema} {v : View} {σ : VSys} (h : VStart v σ) : JobsKnown s σ := by
  intro j hj; rw [h.jobs] at hj; simp at hj

/-- Every committed state in the later history is an earlier one or was committed in between. -/
theorem past_origin {s : Schema} {σ σ' : VSys} (he : VExec s σ σ') :
    ∀ p ∈ σ'.past, p ∈ σ.past ∨ ∃ τ, VExec s σ τ ∧ VExec s τ σ' ∧ p.2 = τ.db.trees := by
  induction he with
  | refl => intro p hp; exact .inl hp
  | @step τ τ' hex hs ih =>
    have hstep : VExec s τ τ' := .step (.refl _) hs
    have old : ∀ p ∈ τ.past, p ∈ σ.past ∨ ∃ μ, VExec s σ μ ∧ VExec s μ τ' ∧ p.2 = μ.db.trees := by
      intro p hp
      rcases ih p hp with h | ⟨μ, h1, h2, h3⟩
      · exact .inl h
      · exact .inr ⟨μ, h1, h2.trans hstep, h3⟩
    have new : ∀ p, p.2 = τ'.db.trees → p ∈ σ.past ∨
        ∃ μ, VExec s σ μ ∧ VExec s μ τ' ∧ p.2 = μ.db.trees :=
      fun p hp => .inr ⟨τ', .step hex hs, .refl _, hp⟩
    have hcommit : ∀ tid d t, (∀ p ∈ τ'.past, p ∈ (τ.commit tid d t).past) → τ'.db.trees = t →
        ∀ p ∈ τ'.past, p ∈ σ.past ∨ ∃ μ, VExec s σ μ ∧ VExec s μ τ' ∧ p.2 = μ.db.trees := by
      intro tid d t hpast ht p hp
      have := hpast p hp
      simp only [VSys.commit, List.mem_append, List.mem_singleton] at this
      rcases this with h | rfl
      · exact old p h
      · exact new _ ht.symm
    cases hs with
    | transaction => exact hcommit _ _ _ (fun p hp => hp) rfl
    | other => exact hcommit _ _ _ (fun p hp => hp) rfl
    | @chunk pre post w m p tid bs es dm hj => exact hcommit tid none _ (fun p hp => hp) rfl
    | begin => exact old
    | scan => exact old
    | done => exact old
    | fail => exact old
    | restart => exact old

end Bonsai.Store
