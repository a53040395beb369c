import Verif.Access.C58

/-!
# C58: calls that use views
-/
set_option linter.unusedSimpArgs false
set_option linter.unusedVariables false

namespace Bonsai.Access
open Bonsai Bonsai.Names Bonsai.Store Bonsai.Query

variable {F : Type}

/-- The same state, except for which sessions own the queued mapping jobs. -/
def SameData (a b : World F) : Prop :=
  ∃ js, b = { a with jobs := js } ∧ js.map (·.1) = a.jobs.map (·.1)

theorem SameData.refl (a : World F) : SameData a a := ⟨a.jobs, rfl, rfl⟩

/-- Every queued mapping job belongs to a session that may read the last transaction id. -/
def Kind (dbName : String) (w : World F) : Prop :=
  ∀ j ∈ w.jobs, j.2.allows (.database dbName) .getLastId = true

/-- Same result, and the same state but for the owners of jobs. -/
structure Alike {α : Type} (dbName : String) (a b : Except Err α × World F) : Prop where
  result : a.1 = b.1
  data : SameData a.2 b.2
  left : Kind dbName a.2
  right : Kind dbName b.2

theorem owner_isSome {js : List (VName × Sess)} {n : VName} :
    (owner js n).isSome ↔ n ∈ js.map (·.1) := by
  induction js with
  | nil => simp [owner]
  | cons j js ih =>
    obtain ⟨m, s⟩ := j
    simp only [owner, List.map_cons, List.mem_cons]
    by_cases h : m = n
    · simp [h]
    · have : n ≠ m := fun e => h e.symm
      simp [h, this, ih]

theorem owner_mem {js : List (VName × Sess)} {n : VName} {s : Sess} (h : owner js n = some s) :
    (n, s) ∈ js := by
  induction js with
  | nil => simp [owner] at h
  | cons j js ih =>
    obtain ⟨m, t⟩ := j
    simp only [owner] at h
    by_cases hm : m = n
    · rw [if_pos hm] at h; cases h; subst hm; exact .head _
    · rw [if_neg hm] at h; exact .tail _ (ih h)

theorem enqueue_fst {js js' : List (VName × Sess)} (h : js'.map (·.1) = js.map (·.1)) (n : VName)
    (s s' : Sess) : (enqueue js' n s').map (·.1) = (enqueue js n s).map (·.1) := by
  have h1 := owner_isSome (js := js) (n := n)
  have h2 := owner_isSome (js := js') (n := n)
  rw [h] at h2
  unfold enqueue
  cases ha : owner js n <;> cases hb : owner js' n <;> simp_all

theorem enqueue_kind {dbName : String} {js : List (VName × Sess)} {n : VName} {s : Sess}
    (h : ∀ j ∈ js, j.2.allows (.database dbName) .getLastId = true)
    (hs : s.allows (.database dbName) .getLastId = true) :
    ∀ j ∈ enqueue js n s, j.2.allows (.database dbName) .getLastId = true := by
  unfold enqueue
  split
  · exact h
  · intro j hj
    rcases List.mem_append.mp hj with hj | hj
    · exact h j hj
    · rw [List.mem_singleton] at hj; subst hj; exact hs

theorem filter_fst {js js' : List (VName × Sess)} (h : js'.map (·.1) = js.map (·.1)) (n : VName) :
    (js'.filter fun j => j.1 ≠ n).map (·.1) = (js.filter fun j => j.1 ≠ n).map (·.1) := by
  have key : ∀ l : List (VName × Sess),
      (l.filter fun j => j.1 ≠ n).map (·.1) = (l.map (·.1)).filter fun m => decide (m ≠ n) := by
    intro l
    induction l with
    | nil => rfl
    | cons j l ih =>
      by_cases hj : j.1 = n
      · simp [List.filter_cons, hj] at ih ⊢; exact ih
      · simp [List.filter_cons, hj] at ih ⊢; exact ih
  rw [key, key, h]

theorem scan_alike {dbName : String} {w w' : World F} (h : SameData w w') (hk : Kind dbName w)
    (hk' : Kind dbName w') {s s' : Sess} (hs : s.allows (.database dbName) .getLastId = true)
    (hs' : s'.allows (.database dbName) .getLastId = true) (v : View) :
    (w.scan s v).1 = (w'.scan s' v).1 ∧ SameData (w.scan s v).2 (w'.scan s' v).2 ∧
      Kind dbName (w.scan s v).2 ∧ Kind dbName (w'.scan s' v).2 := by
  obtain ⟨js, rfl, hj⟩ := h
  unfold World.scan
  by_cases h1 : v.name ∈ w.checked
  · simp only [h1, if_true]
    exact ⟨trivial, ⟨js, rfl, hj⟩, hk, hk'⟩
  · by_cases h2 : w.versions v.name = some v.version
    · simp only [h1, h2, if_true, if_false]
      exact ⟨trivial, ⟨js, rfl, hj⟩, hk, hk'⟩
    · simp only [h1, h2, if_false]
      exact ⟨trivial, ⟨_, rfl, enqueue_fst hj _ _ _⟩, enqueue_kind hk hs, enqueue_kind hk' hs'⟩

theorem mapWith_alike {dbName : String} {w w' : World F} (h : SameData w w') (hk : Kind dbName w)
    (hk' : Kind dbName w') {s s' : Sess} (hs : s.allows (.database dbName) .getLastId = true)
    (hs' : s'.allows (.database dbName) .getLastId = true) (v : View) :
    Alike dbName (w.mapWith dbName s v) (w'.mapWith dbName s' v) := by
  obtain ⟨js, rfl, hj⟩ := h
  unfold World.mapWith
  simp only [hs, hs', if_true]
  by_cases h0 : w.db.lastTid = 0
  · simp only [h0, if_true]
    exact ⟨rfl, ⟨js, rfl, hj⟩, hk, hk'⟩
  · simp only [h0, if_false]
    cases hi : (w.db.trees.invalidated v.name).keys with
    | nil => exact ⟨rfl, ⟨js, rfl, hj⟩, hk, hk'⟩
    | cons x xs =>
      dsimp only
      cases hm : mapBatches v (w.db.trees.docs v.name.collection) [x :: xs]
          (w.db.trees.entries v.name, w.db.trees.docMap v.name) with
      | error e => exact ⟨rfl, ⟨js, rfl, hj⟩, hk, hk'⟩
      | ok p => exact ⟨rfl, ⟨js, rfl, hj⟩, hk, hk'⟩

theorem owner_kind {dbName : String} {w : World F} (hk : Kind dbName w) {s : Sess}
    (hs : s.allows (.database dbName) .getLastId = true) (n : VName) :
    ((owner w.jobs n).getD s).allows (.database dbName) .getLastId = true := by
  cases h : owner w.jobs n with
  | none => exact hs
  | some o => exact hk _ (owner_mem h)

theorem mapNow_alike {dbName : String} {w w' : World F} (h : SameData w w') (hk : Kind dbName w)
    (hk' : Kind dbName w') {s s' : Sess} (hs : s.allows (.database dbName) .getLastId = true)
    (hs' : s'.allows (.database dbName) .getLastId = true) (v : View) :
    Alike dbName (w.mapNow dbName s v) (w'.mapNow dbName s' v) := by
  have o := owner_kind hk hs v.name
  have o' := owner_kind hk' hs' v.name
  obtain ⟨js, rfl, hj⟩ := h
  exact mapWith_alike ⟨_, rfl, filter_fst hj _⟩ (fun j hm => hk j ((List.mem_filter.mp hm).1))
    (fun j hm => hk' j ((List.mem_filter.mp hm).1)) o o' v

theorem updateView_alike {dbName : String} {w w' : World F} (h : SameData w w') (hk : Kind dbName w)
    (hk' : Kind dbName w') {s s' : Sess} (hs : s.allows (.database dbName) .getLastId = true)
    (hs' : s'.allows (.database dbName) .getLastId = true) (v : View) (b : Bool) :
    Alike dbName (w.updateView dbName s v b) (w'.updateView dbName s' v b) := by
  obtain ⟨-, hd, k, k'⟩ := scan_alike h hk hk' hs hs' v
  unfold World.updateView
  generalize (w.scan s v).2 = u at hd k
  generalize (w'.scan s' v).2 = u' at hd k'
  simp only [hs, hs', if_true]
  have hn := mapNow_alike hd k k' hs hs' v
  obtain ⟨js, rfl, hj⟩ := hd
  dsimp only
  by_cases h0 : u.db.lastTid = 0
  · simp only [h0, if_true]
    exact ⟨rfl, ⟨js, rfl, hj⟩, k, k'⟩
  · simp only [h0, if_false]
    cases hc : stale (u.status v.name) u.db.lastTid with
    | false => simp only [Bool.false_eq_true, if_false]; exact ⟨rfl, ⟨js, rfl, hj⟩, k, k'⟩
    | true =>
      simp only [if_true]
      cases b with
      | false =>
        simp only [if_false, Bool.false_eq_true]
        exact ⟨rfl, ⟨_, rfl, enqueue_fst hj _ _ _⟩, enqueue_kind k hs, enqueue_kind k' hs'⟩
      | true =>
        simp only [if_true]
        obtain ⟨hr, hd2, hl, hr2⟩ := hn
        generalize World.mapNow u dbName s v = a at hr hd2 hl
        generalize World.mapNow { u with jobs := js } dbName s' v = a' at hr hd2 hr2
        obtain ⟨a1, a2⟩ := a
        obtain ⟨a1', a2'⟩ := a'
        dsimp only at hr hd2 hl hr2
        subst hr
        cases a1 <;> exact ⟨rfl, hd2, hl, hr2⟩

theorem SameData.entries {w w' : World F} (h : SameData w w') : w'.db = w.db := by
  obtain ⟨js, rfl, -⟩ := h; rfl

theorem readView_alike {α : Type} {dbName : String} {w w' : World F} (h : SameData w w')
    (hk : Kind dbName w) (hk' : Kind dbName w') {s s' : Sess}
    (hs : s.allows (.database dbName) .getLastId = true)
    (hs' : s'.allows (.database dbName) .getLastId = true) (v : View) (p : Policy)
    (f : OMap ViewEntry → α) :
    Alike dbName (w.readView dbName s v p f) (w'.readView dbName s' v p f) := by
  cases p with
  | updateBefore =>
    obtain ⟨hr, hd, hl, hr2⟩ := updateView_alike h hk hk' hs hs' v true
    simp only [World.readView]
    generalize World.updateView w dbName s v true = a at hr hd hl
    generalize World.updateView w' dbName s' v true = a' at hr hd hr2
    obtain ⟨a1, a2⟩ := a
    obtain ⟨a1', a2'⟩ := a'
    dsimp only at hr hd hl hr2
    subst hr
    cases a1 with
    | error e => exact ⟨rfl, hd, hl, hr2⟩
    | ok u => exact ⟨by simp only [hd.entries], hd, hl, hr2⟩
  | noUpdate =>
    obtain ⟨-, hd, k, k'⟩ := scan_alike h hk hk' hs hs' v
    exact ⟨by simp only [World.readView, hd.entries], hd, k, k'⟩
  | updateAfter =>
    obtain ⟨-, hd, k, k'⟩ := scan_alike h hk hk' hs hs' v
    obtain ⟨hr, hd2, hl, hr2⟩ := updateView_alike hd k k' hs hs' v false
    simp only [World.readView, hd.entries]
    generalize World.updateView (w.scan s v).2 dbName s v false = a at hr hd2 hl
    generalize World.updateView (w'.scan s' v).2 dbName s' v false = a' at hr hd2 hr2
    obtain ⟨a1, a2⟩ := a
    obtain ⟨a1', a2'⟩ := a'
    dsimp only at hr hd2 hl hr2
    subst hr
    cases a1 <;> exact ⟨rfl, hd2, hl, hr2⟩

theorem scanAll_alike {dbName : String} {s s' : Sess}
    (hs : s.allows (.database dbName) .getLastId = true)
    (hs' : s'.allows (.database dbName) .getLastId = true) : ∀ (vs : List View) {w w' : World F},
    SameData w w' → Kind dbName w → Kind dbName w' →
    (w.scanAll s vs).1 = (w'.scanAll s' vs).1 ∧ SameData (w.scanAll s vs).2 (w'.scanAll s' vs).2 ∧
      Kind dbName (w.scanAll s vs).2 ∧ Kind dbName (w'.scanAll s' vs).2
  | [], w, w', h, hk, hk' => ⟨rfl, h, hk, hk'⟩
  | v :: vs, w, w', h, hk, hk' => by
    obtain ⟨hb, hd, k, k'⟩ := scan_alike h hk hk' hs hs' v
    obtain ⟨hl, hd2, k2, k2'⟩ := scanAll_alike hs hs' vs hd k k'
    refine ⟨?_, hd2, k2, k2'⟩
    simp only [World.scanAll, hb, hl]

theorem mapAll_alike {dbName : String} {s s' : Sess}
    (hs : s.allows (.database dbName) .getLastId = true)
    (hs' : s'.allows (.database dbName) .getLastId = true) : ∀ (vs : List View) {w w' : World F},
    SameData w w' → Kind dbName w → Kind dbName w' →
    Alike dbName (w.mapAll dbName s vs) (w'.mapAll dbName s' vs)
  | [], w, w', h, hk, hk' => ⟨rfl, h, hk, hk'⟩
  | v :: vs, w, w', h, hk, hk' => by
    obtain ⟨hr, hd, hl, hr2⟩ := mapNow_alike h hk hk' hs hs' v
    simp only [World.mapAll]
    generalize World.mapNow w dbName s v = a at hr hd hl
    generalize World.mapNow w' dbName s' v = a' at hr hd hr2
    obtain ⟨a1, a2⟩ := a
    obtain ⟨a1', a2'⟩ := a'
    dsimp only at hr hd hl hr2
    subst hr
    cases a1 with
    | error e => exact ⟨rfl, hd, hl, hr2⟩
    | ok u => exact mapAll_alike hs hs' vs hd hl hr2

theorem apply_alike {s : Schema} {dbName : String} {se se' : Sess} {w w' : World F}
    (h : SameData w w') (hk : Kind dbName w) (hk' : Kind dbName w')
    (hs : se.allows (.database dbName) .getLastId = true)
    (hs' : se'.allows (.database dbName) .getLastId = true) (tid : Nat) (ops : List Operation)
    (ha : ∀ op ∈ ops, se.mayApply dbName op = se'.mayApply dbName op) :
    Alike dbName (w.apply s dbName se tid ops) (w'.apply s dbName se' tid ops) := by
  have hall : (ops.all fun op => se.mayApply dbName op) = (ops.all fun op => se'.mayApply dbName op) := by
    rw [Bool.eq_iff_iff, List.all_eq_true, List.all_eq_true]
    constructor <;> intro hh op hop
    · rw [← ha op hop]; exact hh op hop
    · rw [ha op hop]; exact hh op hop
  unfold World.apply
  rw [hall]
  cases hc : ops.all fun op => se'.mayApply dbName op with
  | false => exact ⟨rfl, h, hk, hk'⟩
  | true =>
    simp only [if_true]
    obtain ⟨hl, hd, k, k'⟩ := scanAll_alike hs hs' (eagerViews s ops) h hk hk'
    rw [hl]
    obtain ⟨hr, hd2, hl2, hr2⟩ := mapAll_alike hs hs' (World.scanAll w' se' (eagerViews s ops)).1 hd k k'
    generalize World.mapAll (World.scanAll w se (eagerViews s ops)).2 dbName se
      (World.scanAll w' se' (eagerViews s ops)).1 = a at hr hd2 hl2
    generalize World.mapAll (World.scanAll w' se' (eagerViews s ops)).2 dbName se'
      (World.scanAll w' se' (eagerViews s ops)).1 = a' at hr hd2 hr2
    obtain ⟨a1, a2⟩ := a
    obtain ⟨a1', a2'⟩ := a'
    dsimp only at hr hd2 hl2 hr2
    subst hr
    cases a1 with
    | error e => exact ⟨rfl, hd2, hl2, hr2⟩
    | ok u =>
      obtain ⟨js, rfl, hj⟩ := hd2
      dsimp only
      generalize applyToRoots s a2.db tid ops = q
      obtain ⟨q1, q2⟩ := q
      cases q1 <;> exact ⟨rfl, ⟨js, rfl, hj⟩, hl2, hr2⟩

/-- The permissions a call needs besides the documented one of the view, depending on the data: the
documents a query returns with them, and the documents `delete_docs` deletes. -/
def MayHandleDocs (dbName : String) (sess : Sess) : Request F → Prop
  | .queryWithDocs v .. => ∀ id, sess.allows (.document dbName v.collection id) .get = true
  | .deleteDocs v .. => ∀ id, sess.allows (.document dbName v.collection id) .delete = true
  | _ => True

theorem respond_alike {α : Type} {dbName : String} {a b : Except Err α × World F}
    (h : Alike dbName a b) (f : α → Response F) : Alike dbName (respond f a) (respond f b) := by
  obtain ⟨a1, a2⟩ := a
  obtain ⟨b1, b2⟩ := b
  obtain ⟨hr, hd, hl, hr2⟩ := h
  dsimp only at hr hd hl hr2
  subst hr
  cases a1 <;> exact ⟨rfl, hd, hl, hr2⟩

theorem query_alike {s : Schema} {dbName : String} {sess : Sess} {w : World F} (hk : Kind dbName w)
    (hl : sess.allows (.database dbName) .getLastId = true) {n : VName}
    (hq : sess.allows (.view dbName n) .query = true) (key : Option (QueryKey Bytes)) (order : Sort')
    (limit : Option Nat) (p : Policy) :
    Alike dbName (w.query s dbName sess n key order limit p) (w.query s dbName none n key order limit p) := by
  unfold World.query
  cases hf : findView s n with
  | none => exact ⟨rfl, .refl _, hk, hk⟩
  | some v =>
    have := findView_name hf
    subst this
    dsimp only
    rw [guarded_yes hq, guarded_yes rfl]
    exact readView_alike (.refl w) hk hk hl rfl v p _

theorem groups_alike {s : Schema} {dbName : String} {sess : Sess} {w : World F} (hk : Kind dbName w)
    (hl : sess.allows (.database dbName) .getLastId = true) {n : VName}
    (hq : sess.allows (.view dbName n) .reduce = true) (key : Option (QueryKey Bytes)) (p : Policy) :
    Alike dbName (w.reduceGroups s dbName sess n key p) (w.reduceGroups s dbName none n key p) := by
  unfold World.reduceGroups
  cases hf : findView s n with
  | none => exact ⟨rfl, .refl _, hk, hk⟩
  | some v =>
    have := findView_name hf
    subst this
    dsimp only
    rw [guarded_yes hq, guarded_yes rfl]
    exact readView_alike (.refl w) hk hk hl rfl v p _

theorem readView_ops {α : Type} {dbName : String} {w : World F} {s : Sess} {v : View} {p : Policy}
    {f : OMap ViewEntry → α} {a : α} {w' : World F} (h : w.readView dbName s v p f = (.ok a, w')) :
    ∃ es, a = f es := by
  cases p <;> simp only [World.readView] at h
  · split at h
    · cases h
    · cases h; exact ⟨_, rfl⟩
  · split at h
    · cases h
    · cases h; exact ⟨_, rfl⟩
  · cases h; exact ⟨_, rfl⟩

theorem mem_deleteOps {c : QName} {es : OMap ViewEntry} {key : Option (QueryKey Bytes)} {op : Operation}
    (h : op ∈ deleteOps c es key) : ∃ hd, op = ⟨c, .delete hd⟩ := by
  unfold deleteOps at h
  rw [List.mem_flatMap] at h
  obtain ⟨e, -, h⟩ := h
  rw [List.mem_map] at h
  obtain ⟨m, -, rfl⟩ := h
  exact ⟨_, rfl⟩

/-- `delete_docs` depends on no permission of the view. -/
theorem deleteDocs_alike {s : Schema} {dbName : String} {sess : Sess} {w : World F} (hk : Kind dbName w)
    (hlast : sess.allows (.database dbName) .getLastId = true) {n : VName}
    (hdocs : ∀ id, sess.allows (.document dbName n.collection id) .delete = true)
    (key : Option (QueryKey Bytes)) (p : Policy) (tid : Nat) :
    Alike dbName (w.deleteDocs s dbName sess n key p tid) (w.deleteDocs s dbName none n key p tid) := by
  unfold World.deleteDocs
  cases hf : findView s n with
  | none => exact ⟨rfl, .refl _, hk, hk⟩
  | some v =>
    have hn := findView_name hf
    dsimp only
    obtain ⟨hr, hd, hl, hr2⟩ := readView_alike (.refl w) hk hk hlast rfl (s' := none) v p
      fun es => deleteOps v.name.collection es key
    have ho := fun ops w' => readView_ops (dbName := dbName) (w := w) (s := sess) (v := v) (p := p)
      (f := fun es => deleteOps v.name.collection es key) (a := ops) (w' := w')
    generalize (w.readView dbName sess v p fun es => deleteOps v.name.collection es key) = a
      at hr hd hl ho
    generalize (w.readView dbName none v p fun es => deleteOps v.name.collection es key) = a'
      at hr hd hr2
    obtain ⟨a1, a2⟩ := a
    obtain ⟨a1', a2'⟩ := a'
    dsimp only at hr hd hl hr2
    subst hr
    cases a1 with
    | error e => exact ⟨rfl, hd, hl, hr2⟩
    | ok ops =>
      obtain ⟨es, he⟩ := ho ops a2 rfl
      have ha : ∀ op ∈ ops, sess.mayApply dbName op = Sess.mayApply none dbName op := by
        intro op hop
        rw [he] at hop
        obtain ⟨hh, rfl⟩ := mem_deleteOps hop
        simp only [Sess.mayApply, required, ofDoc]
        have := hdocs hh.id
        rw [← hn] at this
        rw [this]
        rfl
      obtain ⟨hr, hd, hl, hr2⟩ := apply_alike (s := s) hd hl hr2 hlast rfl tid ops ha
      dsimp only
      generalize World.apply s dbName sess a2 tid ops = b at hr hd hl
      generalize World.apply s dbName none a2' tid ops = b' at hr hd hr2
      obtain ⟨b1, b2⟩ := b
      obtain ⟨b1', b2'⟩ := b'
      dsimp only at hr hd hl hr2
      subst hr
      cases b1 <;> exact ⟨rfl, hd, hl, hr2⟩

/-- **C58**, partial. With the documented permissions — and besides them `GetLastId` on the database,
which nothing documents, and no mapping job queued by a session without it — every call returns what
a handle without any restriction gets, and leaves the same data. -/
theorem C58_permitted_partial [KV.FloatOps F] (s : Schema) (dbName : String) (sess : Sess) (w : World F)
    (r : Request F)
    (h : ∀ res act, (res, act) ∈ documented dbName r → sess.allows res act = true)
    (hdocs : MayHandleDocs dbName sess r)
    (hlast : sess.allows (.database dbName) .getLastId = true) (hk : Kind dbName w) :
    (perform s dbName sess w r).1 = (perform s dbName none w r).1 ∧
      SameData (perform s dbName sess w r).2 (perform s dbName none w r).2 := by
  suffices hs : Alike dbName (perform s dbName sess w r) (perform s dbName none w r) ∨
      perform s dbName sess w r = perform s dbName none w r by
    rcases hs with hs | hs
    · exact ⟨hs.result, hs.data⟩
    · rw [hs]; exact ⟨rfl, .refl _⟩
  cases r with
  | apply ops tid =>
    refine .inl (respond_alike (apply_alike (.refl w) hk hk hlast rfl tid ops ?_) _)
    intro op hop
    have := h (documentedOp dbName op).1 (documentedOp dbName op).2 (List.mem_map.mpr ⟨op, hop, rfl⟩)
    rw [documented_apply] at this
    unfold Sess.mayApply
    rw [this]
    rfl
  | query n key order limit p =>
    exact .inl (respond_alike (query_alike hk hlast (h _ _ (by simp only [documented, List.mem_singleton]))
      key order limit p) _)
  | queryWithDocs n key order limit p =>
    refine .inl (respond_alike ?_ _)
    obtain ⟨hr, hd, hl, hr2⟩ := query_alike (s := s) (n := n) hk hlast
      (h _ _ (by simp only [documented, List.mem_singleton])) key order limit p
    unfold World.queryDocs
    generalize w.query s dbName sess n key order limit p = a at hr hd hl
    generalize w.query s dbName none n key order limit p = a' at hr hd hr2
    obtain ⟨a1, a2⟩ := a
    obtain ⟨a1', a2'⟩ := a'
    dsimp only at hr hd hl hr2
    subst hr
    cases a1 with
    | error e => exact ⟨rfl, hd, hl, hr2⟩
    | ok ms =>
      have h1 : ((ms.map (·.source.id)).all fun id => sess.allows (.document dbName n.collection id) .get)
          = true := all_true fun id _ => hdocs id
      have h2 : ((ms.map (·.source.id)).all fun id =>
          Sess.allows none (.document dbName n.collection id) .get) = true := all_true fun id _ => rfl
      simp only [World.getMany, h1, h2, if_true, hd.entries]
      exact ⟨rfl, hd, hl, hr2⟩
  | reduceGrouped n key p =>
    exact .inl (respond_alike (groups_alike hk hlast (h _ _ (by simp only [documented, List.mem_singleton]))
      key p) _)
  | reduce n key p =>
    refine .inl (respond_alike ?_ _)
    obtain ⟨hr, hd, hl, hr2⟩ := groups_alike (s := s) (n := n) hk hlast
      (h _ _ (by simp only [documented, List.mem_singleton])) key p
    unfold World.reduceAll
    generalize w.reduceGroups s dbName sess n key p = a at hr hd hl
    generalize w.reduceGroups s dbName none n key p = a' at hr hd hr2
    obtain ⟨a1, a2⟩ := a
    obtain ⟨a1', a2'⟩ := a'
    dsimp only at hr hd hl hr2
    subst hr
    cases a1 with
    | error e => exact ⟨rfl, hd, hl, hr2⟩
    | ok gs =>
      rcases gs with _ | ⟨g, _ | ⟨g', gs⟩⟩
      · dsimp only
        cases findView s n with
        | none => exact ⟨rfl, hd, hl, hr2⟩
        | some v => dsimp only; cases v.reduce [] true <;> exact ⟨rfl, hd, hl, hr2⟩
      · exact ⟨rfl, hd, hl, hr2⟩
      · dsimp only
        cases findView s n with
        | none => exact ⟨rfl, hd, hl, hr2⟩
        | some v => dsimp only; cases v.reduce (g :: g' :: gs) true <;> exact ⟨rfl, hd, hl, hr2⟩
  | deleteDocs n key p tid =>
    exact .inl (respond_alike (deleteDocs_alike hk hlast hdocs key p tid) _)
  | _ =>
    refine .inr (C58_permitted_plain s dbName sess w _ ?_ h)
    simp [Request.NoViews, Request.view?]

end Bonsai.Access
