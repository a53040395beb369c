import Verif.Views.Wait

/-!
# The invariant of waiting queries
-/
set_option linter.unusedSimpArgs false
set_option linter.unusedVariables false

namespace Bonsai.Store.Wait
open Bonsai Bonsai.Names Bonsai.Store

/-- The job will report at least transaction `w`, if it succeeds. -/
def Late (w : Nat) : Work → Prop
  | .mapping j => w ≤ j.tid
  | .ended _ (some m) => w ≤ m
  | .ended _ none => True

/-- What is known of a call by its phase. -/
def PhaseOk (q : QSys) (v : VName) (n : Nat) : Phase → Prop
  | .fresh => n = 0
  | .check w => n = 0 ∧ 0 < w ∧ w ≤ q.db.lastTid
  | .loop w => 0 < w ∧ w ≤ q.db.lastTid ∧ n ≤ 1 ∧
      (n = 1 → ∀ y ∈ q.work, y.1.key = some v → Late w y.2)
  | .wait w id ch => 0 < w ∧ w ≤ q.db.lastTid ∧ 1 ≤ n ∧ n ≤ 2 ∧ Jobs.Joined q.evs id ch ∧
      (∀ t ∈ q.mgr.active, t.id = id → t.key = some v) ∧
      (∀ y ∈ q.work, y.1.key = some v → (y.1.id ≠ id ∨ n = 2) → Late w y.2) ∧
      (∀ m, q.mgr.inbox ch = [some m] → m ∈ q.results v ∧ (n = 2 → w ≤ m))
  | .done => n ≤ 2
  | .failed => n ≤ 2

def QueryOk (q : QSys) (x : Query) : Prop := PhaseOk q x.view.name x.lookups x.phase

structure QInv (s : Schema) (q : QSys) : Prop where
  mgr : Jobs.Inv q.evs q.mgr
  run : q.mgr.running = q.work.map (·.1)
  keys : ∀ y ∈ q.work, y.1.key = some y.2.view.name
  views : ∀ y ∈ q.work, y.2.view ∈ s.views
  queue : ∀ t ∈ q.mgr.queue, ∃ v ∈ s.views, t.key = some v.name
  tids : ∀ y ∈ q.work, ∀ j, y.2 = .mapping j → j.tid ≤ q.db.lastTid
  ended : ∀ y ∈ q.work, ∀ v m, y.2 = .ended v (some m) → m ∈ q.results v.name ∧ m ≤ q.db.lastTid
  status : ∀ n m, q.status n = some m → m ∈ q.results n ∧ m ≤ q.db.lastTid ∧
    ∀ y ∈ q.work, y.1.key = some n → Late m y.2
  nonempty : q.mgr.active ≠ [] → q.db.lastTid ≠ 0
  known : ∀ x ∈ q.queries, x.view ∈ s.views
  queries : ∀ x ∈ q.queries, QueryOk q x

theorem qinv_start {s : Schema} {v : View} {q : QSys} (h : QStart v q) : QInv s q where
  mgr := by rw [h.mgr, h.evs]; exact Jobs.inv_new
  run := by rw [h.mgr, h.work]; rfl
  keys := by rw [h.work]; simp
  views := by rw [h.work]; simp
  queue := by rw [h.mgr]; simp [Jobs.St.new]
  tids := by rw [h.work]; simp
  ended := by rw [h.work]; simp
  status := by rw [h.status]; simp
  nonempty := by rw [h.mgr]; simp [Jobs.St.new, Jobs.St.active]
  known := by rw [h.queries]; simp
  queries := by rw [h.queries]; simp

/-- Steps that leave the channels alone keep what is known of a call. -/
theorem phaseOk_frame {q q' : QSys} {v : VName} {n : Nat} {ph : Phase} (h : PhaseOk q v n ph)
    (hb : ∀ id ch, Jobs.Joined q.evs id ch → id ≤ q.mgr.lastId ∧ ch < q.mgr.channels)
    (hl : q.db.lastTid ≤ q'.db.lastTid)
    (he : ∀ id ch, Jobs.Joined q.evs id ch → Jobs.Joined q'.evs id ch)
    (ha : ∀ t ∈ q'.mgr.active, t ∈ q.mgr.active ∨ q.mgr.lastId < t.id)
    (hw : ∀ y ∈ q'.work, (∃ y0 ∈ q.work, y0.1 = y.1 ∧
      ∀ w, w ≤ q.db.lastTid → Late w y0.2 → Late w y.2) ∨ ∀ w, w ≤ q.db.lastTid → Late w y.2)
    (hi : ∀ ch, ch < q.mgr.channels → q'.mgr.inbox ch = q.mgr.inbox ch)
    (hr : ∀ m ∈ q.results v, m ∈ q'.results v) : PhaseOk q' v n ph := by
  cases ph with
  | fresh => exact h
  | check w => exact ⟨h.1, h.2.1, Nat.le_trans h.2.2 hl⟩
  | loop w =>
    obtain ⟨h0, h1, h2, h3⟩ := h
    refine ⟨h0, Nat.le_trans h1 hl, h2, ?_⟩
    intro hn y hy hk
    rcases hw y hy with ⟨y0, hy0, e, hl0⟩ | hl0
    · exact hl0 w h1 (h3 hn y0 hy0 (by rw [e]; exact hk))
    · exact hl0 w h1
  | wait w id ch =>
    obtain ⟨h0, h1, h2, h3, h4, h5, h6, h7⟩ := h
    refine ⟨h0, Nat.le_trans h1 hl, h2, h3, he _ _ h4, ?_, ?_, ?_⟩
    · intro t ht hid
      rcases ha t ht with h | h
      · exact h5 t h hid
      · have := (hb _ _ h4).1
        omega
    · intro y hy hk hn
      rcases hw y hy with ⟨y0, hy0, e, hl0⟩ | hl0
      · exact hl0 w h1 (h6 y0 hy0 (by rw [e]; exact hk) (by rw [e]; exact hn))
      · exact hl0 w h1
    · intro m hm
      rw [hi ch (hb _ _ h4).2] at hm
      exact ⟨hr m (h7 m hm).1, (h7 m hm).2⟩
  | done => exact h
  | failed => exact h

theorem joined_snoc {evs : List (Jobs.Event VName (Option Nat))} {e : Jobs.Event VName (Option Nat)}
    {id ch : Nat} (h : Jobs.Joined evs id ch) : Jobs.Joined (evs ++ [e]) id ch := by
  rcases h with ⟨k, h⟩ | h
  · exact .inl ⟨k, by simp [h]⟩
  · exact .inr (by simp [h])

theorem QInv.bound {s : Schema} {q : QSys} (h : QInv s q) :
    ∀ id ch, Jobs.Joined q.evs id ch → id ≤ q.mgr.lastId ∧ ch < q.mgr.channels :=
  fun id ch hj => ⟨(h.mgr.joinedBound id ch hj).2, (h.mgr.joinedBound id ch hj).1⟩

theorem QInv.active_work {s : Schema} {q : QSys} (h : QInv s q) {y : Jobs.Task VName × Work}
    (hy : y ∈ q.work) : y.1 ∈ q.mgr.active := by
  unfold Jobs.St.active
  rw [h.run]
  exact List.mem_append_right _ (List.mem_map_of_mem hy)

/-- One job per key. -/
theorem QInv.same {s : Schema} {q : QSys} (h : QInv s q) {t t' : Jobs.Task VName} {n : VName}
    (ht : t ∈ q.mgr.active) (ht' : t' ∈ q.mgr.active) (hk : t.key = some n) (hk' : t'.key = some n) :
    t.id = t'.id := by
  have h1 := h.mgr.keyed t ht n hk
  have h2 := h.mgr.keyed t' ht' n hk'
  rw [h1] at h2
  exact Option.some.inj h2

theorem lastTid_qcommit (q : QSys) (tid : Nat) (d : Option Changes) (t : Trees) :
    (q.commit tid d t).db.lastTid = tid + 1 := by
  simp [QSys.commit, Db.lastTid]

/-- Commits keep the invariant. -/
theorem QInv.commit {s : Schema} {q : QSys} (h : QInv s q) {tid : Nat} (d : Option Changes) (t : Trees)
    (htid : q.db.lastTid ≤ tid) : QInv s (q.commit tid d t) := by
  have hl : q.db.lastTid ≤ (q.commit tid d t).db.lastTid := by rw [lastTid_qcommit]; omega
  refine ⟨h.mgr, h.run, h.keys, h.views, h.queue, ?_, ?_, ?_, ?_, h.known, ?_⟩
  · intro y hy j hj
    exact Nat.le_trans (h.tids y hy j hj) hl
  · intro y hy v m hm
    exact ⟨(h.ended y hy v m hm).1, Nat.le_trans (h.ended y hy v m hm).2 hl⟩
  · intro n m hm
    exact ⟨(h.status n m hm).1, Nat.le_trans (h.status n m hm).2.1 hl, (h.status n m hm).2.2⟩
  · intro _; rw [lastTid_qcommit]; omega
  · intro x hx
    exact phaseOk_frame (h.queries x hx) h.bound hl (fun _ _ h => h) (fun t ht => .inl ht)
      (fun y hy => .inl ⟨y, hy, rfl, fun _ _ h => h⟩) (fun _ _ => rfl) (fun _ h => h)

/-- Replacing what one worker does. -/
theorem QInv.work_step {s : Schema} {q : QSys} (h : QInv s q) {pre post : List (Jobs.Task VName × Work)}
    {t : Jobs.Task VName} {a b : Work} (hj : q.work = pre ++ (t, a) :: post) (hv : b.view = a.view)
    (hlate : ∀ w, w ≤ q.db.lastTid → Late w a → Late w b)
    (htid : ∀ j, b = .mapping j → j.tid ≤ q.db.lastTid)
    (hend : ∀ v m, b = .ended v (some m) → m ∈ q.results v.name ∧ m ≤ q.db.lastTid) :
    QInv s { q with work := pre ++ (t, b) :: post } := by
  have hself : (t, a) ∈ q.work := by rw [hj]; simp
  have hmem : ∀ y ∈ pre ++ (t, b) :: post, y = (t, b) ∨ y ∈ q.work := by
    intro y hy
    rw [hj]
    simp only [List.mem_append, List.mem_cons] at hy ⊢
    rcases hy with hy | hy | hy
    · exact .inr (.inl hy)
    · exact .inl hy
    · exact .inr (.inr (.inr hy))
  have hfr : ∀ y ∈ pre ++ (t, b) :: post, (∃ y0 ∈ q.work, y0.1 = y.1 ∧
      ∀ w, w ≤ q.db.lastTid → Late w y0.2 → Late w y.2) ∨ ∀ w, w ≤ q.db.lastTid → Late w y.2 := by
    intro y hy
    rcases hmem y hy with rfl | hy
    · exact .inl ⟨(t, a), hself, rfl, hlate⟩
    · exact .inl ⟨y, hy, rfl, fun _ _ h => h⟩
  refine ⟨h.mgr, ?_, ?_, ?_, h.queue, ?_, ?_, ?_, h.nonempty, h.known, ?_⟩
  · show q.mgr.running = (pre ++ (t, b) :: post).map (·.1)
    rw [h.run, hj]; simp
  · intro y hy
    rcases hmem y hy with rfl | hy
    · have := h.keys _ hself
      simpa [hv] using this
    · exact h.keys y hy
  · intro y hy
    rcases hmem y hy with rfl | hy
    · have := h.views _ hself
      simpa [hv] using this
    · exact h.views y hy
  · intro y hy j hj
    rcases hmem y hy with rfl | hy
    · exact htid j hj
    · exact h.tids y hy j hj
  · intro y hy v m hm
    rcases hmem y hy with rfl | hy
    · exact hend v m hm
    · exact h.ended y hy v m hm
  · intro n m hm
    obtain ⟨h1, h2, h3⟩ := h.status n m hm
    refine ⟨h1, h2, ?_⟩
    intro y hy hk
    rcases hfr y hy with ⟨y0, hy0, e, hl⟩ | hl
    · exact hl m h2 (h3 y0 hy0 (by rw [e]; exact hk))
    · exact hl m h2
  · intro x hx
    exact phaseOk_frame (h.queries x hx) h.bound (Nat.le_refl _) (fun _ _ h => h) (fun t ht => .inl ht)
      hfr (fun _ _ => rfl) (fun _ h => h)

/-- Changing one call. -/
theorem QInv.set {s : Schema} {q : QSys} (h : QInv s q) {p : Nat} {x y : Query}
    (hx : q.queries[p]? = some x) (hv : y.view = x.view) (hok : QueryOk q y) :
    QInv s { q with queries := q.queries.set p y } := by
  have hm : ∀ z ∈ q.queries.set p y, z = y ∨ z ∈ q.queries := by
    intro z hz
    rcases List.mem_or_eq_of_mem_set hz with h | h
    · exact .inr h
    · exact .inl h
  refine ⟨h.mgr, h.run, h.keys, h.views, h.queue, h.tids, h.ended, h.status, h.nonempty, ?_, ?_⟩
  · intro z hz
    rcases hm z hz with rfl | hz
    · rw [hv]; exact h.known x (List.mem_of_getElem? hx)
    · exact h.known z hz
  · intro z hz
    rcases hm z hz with rfl | hz
    · exact hok
    · exact h.queries z hz

/-- What a lookup changes. -/
theorem lookup_shape {st : Jobs.St VName (Option Nat)} {k : VName} (hs : st.lastId + 1 < 2 ^ 64) :
    (st.lookup k).1.running = st.running ∧ (st.lookup k).1.inbox = st.inbox ∧
      (∀ t ∈ (st.lookup k).1.queue, t ∈ st.queue ∨ (t.key = some k ∧ st.lastId < t.id)) ∧
      (st.lookup k).1.keyed k = some (st.lookup k).2.1 := by
  have hmod : (st.lastId + 1) % 2 ^ 64 = st.lastId + 1 := Nat.mod_eq_of_lt hs
  cases hk : st.keyed k with
  | some id =>
    simp only [Jobs.St.lookup, hk, Jobs.St.newHandle]
    exact ⟨trivial, trivial, fun t ht => .inl ht, trivial⟩
  | none =>
    simp only [Jobs.St.lookup, hk, Jobs.St.newHandle, Jobs.St.enqueue, hmod]
    refine ⟨trivial, trivial, ?_, Jobs.put_self _ _ _⟩
    intro t ht
    simp only [List.mem_append, List.mem_singleton] at ht
    rcases ht with ht | rfl
    · exact .inl ht
    · exact .inr ⟨rfl, by simp⟩

/-- Looking up a job keeps the invariant. -/
theorem QInv.looked {s : Schema} {q : QSys} (h : QInv s q) {v : View} (hv : v ∈ s.views)
    (hz : q.db.lastTid ≠ 0) (hl : q.evs.length + 1 < 2 ^ 64) : QInv s (q.looked v.name) := by
  have hstep : Jobs.Inv (q.looked v.name).evs (q.looked v.name).mgr :=
    Jobs.inv_step h.mgr hl (.lookup q.mgr v.name)
  have hsm := h.mgr.small
  obtain ⟨h1, h2, h3, h4⟩ := lookup_shape (st := q.mgr) (k := v.name) (by omega)
  refine ⟨hstep, ?_, h.keys, h.views, ?_, h.tids, h.ended, h.status, ?_, h.known, ?_⟩
  · show (q.mgr.lookup v.name).1.running = q.work.map (·.1)
    rw [h1]; exact h.run
  · intro t ht
    rcases h3 t ht with ht | ⟨ht, _⟩
    · exact h.queue t ht
    · exact ⟨v, hv, ht⟩
  · intro _; exact hz
  · intro x hx
    refine phaseOk_frame (h.queries x hx) h.bound (Nat.le_refl _) (fun _ _ h => joined_snoc h) ?_
      (fun y hy => .inl ⟨y, hy, rfl, fun _ _ h => h⟩) ?_ (fun _ h => h)
    · intro t ht
      simp only [Jobs.St.active, List.mem_append] at ht ⊢
      rcases ht with ht | ht
      · rcases h3 t ht with ht | ⟨_, ht⟩
        · exact .inl (.inl ht)
        · exact .inr ht
      · exact .inl (.inr (by rw [← h1]; exact ht))
    · intro ch _
      show (q.mgr.lookup v.name).1.inbox ch = _
      rw [h2]

theorem completed_shape {st : Jobs.St VName (Option Nat)} {t : Jobs.Task VName} {r : Option Nat} :
    (st.completed t r).running = st.running ∧ (st.completed t r).queue = st.queue ∧
      (∀ ch, (st.completed t r).inbox ch ≠ st.inbox ch →
        ∃ chs, st.senders t.id = some chs ∧ ch ∈ chs) := by
  unfold Jobs.St.completed
  cases hk : t.key <;> cases hs : st.senders t.id <;>
    (simp only [hs]; refine ⟨trivial, trivial, ?_⟩; intro ch hne)
  · exact absurd rfl hne
  · rename_i chs
    refine ⟨chs, rfl, ?_⟩
    refine Classical.byContradiction fun hn => hne ?_
    exact Jobs.sendAll_other hn
  · exact absurd rfl hne
  · rename_i chs
    refine ⟨chs, rfl, ?_⟩
    refine Classical.byContradiction fun hn => hne ?_
    exact Jobs.sendAll_other hn

/-- A call looks up the mapping job of its view. -/
theorem QInv.lookup {s : Schema} {q : QSys} (h : QInv s q) {p : Nat} {x : Query} {w : Nat}
    (hx : q.queries[p]? = some x) (hp : x.phase = .loop w) (hl : q.evs.length + 1 < 2 ^ 64) :
    QInv s { q.looked x.view.name with
      queries := q.queries.set p { x with
        phase := afterLookup x.block w (q.mgr.lookup x.view.name).2.1 (q.mgr.lookup x.view.name).2.2
        lookups := x.lookups + 1 } } := by
  have hok := h.queries x (List.mem_of_getElem? hx)
  unfold QueryOk at hok
  rw [hp] at hok
  obtain ⟨h0, h1, h2, h3⟩ := hok
  have hv := h.known x (List.mem_of_getElem? hx)
  have hq := h.looked hv (by omega) hl
  refine hq.set (p := p) (x := x) hx rfl ?_
  show PhaseOk (q.looked x.view.name) x.view.name (x.lookups + 1) (afterLookup x.block w _ _)
  unfold afterLookup
  by_cases hb : x.block = true
  · rw [if_pos hb]
    have hj : Jobs.Joined (q.looked x.view.name).evs (q.mgr.lookup x.view.name).2.1
        (q.mgr.lookup x.view.name).2.2 := .inl ⟨x.view.name, by simp [QSys.looked]⟩
    obtain ⟨l1, l2, l3, l4⟩ := lookup_shape (st := q.mgr) (k := x.view.name)
      (by have := h.mgr.small; omega)
    refine ⟨h0, h1, by omega, by omega, hj, ?_, ?_, ?_⟩
    · intro t ht hid
      obtain ⟨u, hu⟩ := hq.mgr.open_ t ht
      have hka := hq.mgr.keyedActive x.view.name _ l4
      rcases hka.1 with hka | hka
      · -- ids are unique among active jobs
        have hnd := hq.mgr.ids
        have : t = ⟨(q.mgr.lookup x.view.name).2.1, some x.view.name⟩ := by
          have hinj := List.pairwise_map.mp hnd
          refine Classical.byContradiction fun hne => ?_
          rcases List.mem_iff_getElem.mp ht with ⟨i, hi, ei⟩
          rcases List.mem_iff_getElem.mp hka with ⟨k, hk, ek⟩
          rcases Nat.lt_trichotomy i k with hlt | heq | hlt
          · exact List.pairwise_iff_getElem.mp hinj i k hi hk hlt (by rw [ei, ek]; exact hid)
          · subst heq; exact hne (ei.symm.trans ek)
          · exact List.pairwise_iff_getElem.mp hinj k i hk hi hlt (by rw [ei, ek]; exact hid.symm)
        rw [this]
      · exact absurd hid ((hq.mgr.panickedBound _ hka).2 t ht)
    · intro y hy hk hn
      rcases hn with hn | hn
      · have hy' := hq.mgr.keyed y.1 (hq.active_work hy) _ hk
        have : some (q.mgr.lookup x.view.name).2.1 = some y.1.id := l4.symm.trans hy'
        exact absurd (Option.some.inj this).symm hn
      · exact h3 (by omega) y hy hk
    · intro m hm
      exfalso
      have : (q.looked x.view.name).mgr.inbox (q.mgr.lookup x.view.name).2.2 = [] := by
        show (q.mgr.lookup x.view.name).1.inbox _ = []
        rw [l2]
        refine h.mgr.fresh _ ?_
        cases hk : q.mgr.keyed x.view.name with
        | some id => simp only [Jobs.St.lookup, hk, Jobs.St.newHandle]; exact Nat.le_refl _
        | none =>
          simp only [Jobs.St.lookup, hk, Jobs.St.newHandle, Jobs.St.enqueue]; exact Nat.le_refl _
      rw [this] at hm
      cases hm
  · rw [if_neg hb]; show x.lookups + 1 ≤ 2; omega

/-- A commit of a mapping job. -/
theorem QInv.chunk {s : Schema} {q : QSys} (h : QInv s q) {pre post : List (Jobs.Task VName × Work)}
    {t : Jobs.Task VName} {v : View} {m tid : Nat} {p rest : List Bytes} {tr : Trees}
    (hj : q.work = pre ++ (t, .mapping ⟨v, m, some p⟩) :: post) (htid : q.db.lastTid ≤ tid) :
    QInv s { q.commit tid none tr with work := pre ++ (t, .mapping ⟨v, m, some rest⟩) :: post } := by
  have hc := h.commit none tr htid
  have hself : (t, Work.mapping ⟨v, m, some p⟩) ∈ q.work := by rw [hj]; simp
  have hm : m ≤ (q.commit tid none tr).db.lastTid := hc.tids _ hself ⟨v, m, some p⟩ rfl
  exact QInv.work_step (q := q.commit tid none tr) (a := Work.mapping ⟨v, m, some p⟩) hc hj rfl
    (fun w _ hl => hl) (by intro j hj'; cases hj'; exact hm) (by simp)

/-- Every step keeps the invariant. -/
theorem qstep_inv {s : Schema} (hdv : DistinctViews s) {A : List Operation → Prop} {q q' : QSys}
    (h : QInv s q) (hs : QStep s A q q') : QInv s q' := by
  cases hs with
  | transaction ha hp htid => exact h.commit _ _ htid
  | other htid => exact h.commit _ _ htid
  | @start t rest v hq hk hv hw hz hl =>
    have hstep := Jobs.inv_step h.mgr hl (.start q.mgr t rest hq)
    have hact : ∀ x, x ∈ ({ q.mgr with queue := rest, running := q.mgr.running ++ [t] } :
        Jobs.St VName (Option Nat)).active → x ∈ q.mgr.active := by
      intro x hx
      simp only [Jobs.St.active, List.mem_append, List.mem_singleton] at hx ⊢
      rw [hq, List.mem_cons]
      rcases hx with hx | hx | hx
      · exact .inl (.inr hx)
      · exact .inr hx
      · exact .inl (.inl hx)
    have hmem : ∀ y ∈ q.work ++ [(t, Work.mapping ⟨v, q.db.lastTid, none⟩)],
        y ∈ q.work ∨ y = (t, Work.mapping ⟨v, q.db.lastTid, none⟩) := by
      intro y hy; simpa using hy
    have hfr : ∀ y ∈ q.work ++ [(t, Work.mapping ⟨v, q.db.lastTid, none⟩)], (∃ y0 ∈ q.work, y0.1 = y.1 ∧
        ∀ w, w ≤ q.db.lastTid → Late w y0.2 → Late w y.2) ∨
        ∀ w, w ≤ q.db.lastTid → Late w y.2 := by
      intro y hy
      rcases hmem y hy with hy | rfl
      · exact .inl ⟨y, hy, rfl, fun _ _ h => h⟩
      · exact .inr fun w hw => hw
    refine ⟨hstep, ?_, ?_, ?_, ?_, ?_, ?_, ?_, fun _ => hz, h.known, ?_⟩
    · show q.mgr.running ++ [t] = _
      rw [h.run]; simp
    · intro y hy
      rcases hmem y hy with hy | rfl
      · exact h.keys y hy
      · exact hk
    · intro y hy
      rcases hmem y hy with hy | rfl
      · exact h.views y hy
      · exact hv
    · intro x hx
      exact h.queue x (by rw [hq]; exact List.mem_cons_of_mem _ hx)
    · intro y hy j hj
      rcases hmem y hy with hy | rfl
      · exact h.tids y hy j hj
      · cases hj; exact Nat.le_refl _
    · intro y hy w m hm
      rcases hmem y hy with hy | rfl
      · exact h.ended y hy w m hm
      · cases hm
    · intro n m hm
      obtain ⟨a, b, c⟩ := h.status n m hm
      refine ⟨a, b, ?_⟩
      intro y hy hk
      rcases hmem y hy with hy | rfl
      · exact c y hy hk
      · exact b
    · intro x hx
      exact phaseOk_frame (h.queries x hx) h.bound (Nat.le_refl _) (fun _ _ h => joined_snoc h)
        (fun x hx => .inl (hact x hx)) hfr (fun _ _ => rfl) (fun _ h => h)
  | @startPanics t rest hq hw hz hl =>
    exfalso
    refine h.nonempty ?_ hz
    simp [Jobs.St.active, hq]
  | @scan pre post t v m hj =>
    have hself : (t, Work.mapping ⟨v, m, none⟩) ∈ q.work := by rw [hj]; simp
    refine h.work_step hj rfl (fun w _ hl => hl) ?_ (by simp)
    intro j hj'
    cases hj'
    exact h.tids _ hself ⟨v, m, none⟩ rfl
  | @chunk pre post t v m p tid bs es dm hj hp hb htid hm =>
    exact h.chunk hj htid
  | @finish pre post t v m hj =>
    have hself : (t, Work.mapping ⟨v, m, some []⟩) ∈ q.work := by rw [hj]; simp
    have htid : m ≤ q.db.lastTid := h.tids _ hself _ rfl
    have hkey := h.keys _ hself
    have hres : ∀ n, ∀ m' ∈ q.results n, m' ∈ upd q.results v.name (q.results v.name ++ [m]) n := by
      intro n m' hm'
      by_cases e : n = v.name
      · subst e; rw [upd_self]; simp [hm']
      · rw [upd_ne _ _ e]; exact hm'
    -- record the result first
    have h0 : QInv s { q with results := upd q.results v.name (q.results v.name ++ [m]) } := by
      refine ⟨h.mgr, h.run, h.keys, h.views, h.queue, h.tids, ?_, ?_, h.nonempty, h.known, ?_⟩
      · intro y hy w m' hm'
        exact ⟨hres _ _ (h.ended y hy w m' hm').1, (h.ended y hy w m' hm').2⟩
      · intro n m' hm'
        exact ⟨hres _ _ (h.status n m' hm').1, (h.status n m' hm').2⟩
      · intro x hx
        exact phaseOk_frame (h.queries x hx) h.bound (Nat.le_refl _) (fun _ _ h => h)
          (fun t ht => .inl ht) (fun y hy => .inl ⟨y, hy, rfl, fun _ _ h => h⟩) (fun _ _ => rfl)
          (hres _)
    have hin : m ∈ upd q.results v.name (q.results v.name ++ [m]) v.name := by rw [upd_self]; simp
    have h1 := h0.work_step (b := .ended v (some m)) hj rfl (fun w _ hl => hl) (by simp)
      (by intro w m' e; cases e; exact ⟨hin, htid⟩)
    refine ⟨h1.mgr, h1.run, h1.keys, h1.views, h1.queue, h1.tids, h1.ended, ?_, h1.nonempty, h1.known,
      h1.queries⟩
    intro n m' hm'
    by_cases e : n = v.name
    · subst e
      simp only [upd_self, Option.some.injEq] at hm'
      subst hm'
      refine ⟨hin, htid, ?_⟩
      intro y hy hk
      have hy' : y.1.id = t.id := by
        refine h.same ?_ (h.active_work hself) hk hkey
        have := h1.active_work hy
        exact this
      simp only [List.mem_append, List.mem_cons] at hy
      have hnd := h.mgr.ids
      unfold Jobs.St.active at hnd
      rw [h.run, hj, List.map_append, List.nodup_append] at hnd
      have hnd2 := hnd.2.1
      simp only [List.map_append, List.map_cons, List.map_map, List.nodup_append, List.nodup_cons] at hnd2
      rcases hy with hy | rfl | hy
      · exact absurd hy' (hnd2.2.2 y.1.id (List.mem_map.mpr ⟨y, hy, rfl⟩) t.id (by simp))
      · exact Nat.le_refl _
      · exact absurd (List.mem_map.mpr ⟨y, hy, hy'⟩) hnd2.2.1.1
    · have hm2 : upd q.status v.name (some m) n = some m' := hm'
      rw [upd_ne _ _ e] at hm2
      exact h1.status n m' hm2
  | @fail pre post t j hj =>
    exact h.work_step hj rfl (fun w _ _ => trivial) (by simp) (by simp)
  | @panic pre post t j hj hl =>
    have hrun : q.mgr.running = pre.map (·.1) ++ t :: post.map (·.1) := by rw [h.run, hj]; simp
    have hstep := Jobs.inv_step h.mgr hl (.panic q.mgr t _ _ hrun)
    have hsub : ∀ y ∈ pre ++ post, y ∈ q.work := by
      intro y hy; rw [hj]; simp only [List.mem_append, List.mem_cons] at hy ⊢
      rcases hy with hy | hy
      · exact .inl hy
      · exact .inr (.inr hy)
    have hact : ∀ x ∈ (q.panicked t (pre ++ post)).mgr.active, x ∈ q.mgr.active := by
      intro x hx
      simp only [QSys.panicked, Jobs.St.active, List.mem_append, List.mem_map] at hx ⊢
      rcases hx with hx | ⟨y, hy, rfl⟩
      · exact .inl hx
      · rw [h.run]; exact .inr (List.mem_map_of_mem (hsub y (List.mem_append.mpr hy)))
    refine ⟨?_, rfl, fun y hy => h.keys y (hsub y hy), fun y hy => h.views y (hsub y hy), h.queue,
      fun y hy => h.tids y (hsub y hy), fun y hy => h.ended y (hsub y hy), ?_, ?_, h.known, ?_⟩
    · simpa [QSys.panicked] using hstep
    · intro n m hm
      exact ⟨(h.status n m hm).1, (h.status n m hm).2.1,
        fun y hy => (h.status n m hm).2.2 y (hsub y hy)⟩
    · intro hne
      refine h.nonempty ?_
      intro e
      obtain ⟨x, hx⟩ := List.exists_mem_of_ne_nil _ hne
      have := hact x hx
      rw [e] at this
      simp at this
    · intro x hx
      exact phaseOk_frame (h.queries x hx) h.bound (Nat.le_refl _) (fun _ _ h => joined_snoc h)
        (fun x hx => .inl (hact x hx)) (fun y hy => .inl ⟨y, hsub y hy, rfl, fun _ _ h => h⟩)
        (fun _ _ => rfl) (fun _ h => h)
  | @complete pre post t v r hj hl =>
    have hself : (t, Work.ended v r) ∈ q.work := by rw [hj]; simp
    have hrun : q.mgr.running = pre.map (·.1) ++ t :: post.map (·.1) := by rw [h.run, hj]; simp
    have hstep := Jobs.inv_step h.mgr hl (.complete q.mgr t r _ _ hrun)
    have hmgr : (q.completed t r (pre ++ post)).mgr =
        ({ q.mgr with running := pre.map (·.1) ++ post.map (·.1) } : Jobs.St VName (Option Nat)).completed t r := by
      simp [QSys.completed]
    obtain ⟨c1, c2, c3⟩ := completed_shape (t := t) (r := r)
      (st := { q.mgr with running := pre.map (·.1) ++ post.map (·.1) })
    rw [← hmgr] at hstep c1 c2 c3
    have hsub : ∀ y ∈ pre ++ post, y ∈ q.work := by
      intro y hy; rw [hj]; simp only [List.mem_append, List.mem_cons] at hy ⊢
      rcases hy with hy | hy
      · exact .inl hy
      · exact .inr (.inr hy)
    have hact : ∀ x ∈ (q.completed t r (pre ++ post)).mgr.active, x ∈ q.mgr.active := by
      intro x hx
      simp only [Jobs.St.active, c1, c2, List.mem_append, List.mem_map] at hx ⊢
      rw [h.run]
      rcases hx with hx | ⟨y, hy, rfl⟩ | ⟨y, hy, rfl⟩
      · exact .inl hx
      · exact .inr (List.mem_map_of_mem (hsub y (List.mem_append_left _ hy)))
      · exact .inr (List.mem_map_of_mem (hsub y (List.mem_append_right _ hy)))
    refine ⟨hstep, ?_, fun y hy => h.keys y (hsub y hy), fun y hy => h.views y (hsub y hy), ?_,
      fun y hy => h.tids y (hsub y hy), fun y hy => h.ended y (hsub y hy), ?_, ?_, h.known, ?_⟩
    · rw [c1]; simp [QSys.completed]
    · rw [c2]; exact h.queue
    · intro n m hm
      exact ⟨(h.status n m hm).1, (h.status n m hm).2.1,
        fun y hy => (h.status n m hm).2.2 y (hsub y hy)⟩
    · intro hne
      refine h.nonempty ?_
      intro e
      obtain ⟨x, hx⟩ := List.exists_mem_of_ne_nil _ hne
      have := hact x hx
      rw [e] at this
      simp at this
    · intro x hx
      have hok := h.queries x hx
      unfold QueryOk at hok ⊢
      -- everything but the channels is framed
      cases hph : x.phase with
      | wait w id ch =>
        rw [hph] at hok
        obtain ⟨h0, h1, h2, h3, h4, h5, h6, h7⟩ := hok
        refine ⟨h0, h1, h2, h3, joined_snoc h4, fun t' ht' => h5 t' (hact t' ht'),
          fun y hy => h6 y (hsub y hy), ?_⟩
        intro m hm
        by_cases hch : (q.completed t r (pre ++ post)).mgr.inbox ch = q.mgr.inbox ch
        · rw [hch] at hm; exact h7 m hm
        · obtain ⟨chs, hs1, hs2⟩ := c3 ch hch
          have hid : t.id = id := by
            obtain ⟨_, hjn⟩ := h.mgr.chans t.id chs hs1
            exact h.mgr.joinedUnique _ _ ch (hjn ch hs2).1 h4
          have hkey := h5 t (h.active_work hself) hid
          have hwait := hstep.waiting id ch (joined_snoc h4)
          have hopen := h.mgr.open_ t (h.active_work hself)
          have hres : Jobs.results (q.evs ++ [Jobs.Event.complete t.id r]) id = [r] := by
            rw [Jobs.results_append, ← hid, hopen.1]
            simp [Jobs.results]
          have hr : r = some m := by
            rcases hwait with ⟨_, _, e, _⟩ | ⟨r', e1, e2, _⟩
            · rw [hres] at e; cases e
            · rw [hres] at e1
              rw [e2] at hm
              cases e1; cases hm; rfl
          subst hr
          have hk2 := h.keys _ hself
          have hvn : v.name = x.view.name := by
            have : some v.name = some x.view.name := hk2.symm.trans hkey
            exact Option.some.inj this
          refine ⟨?_, ?_⟩
          · have := (h.ended _ hself v m rfl).1
            rw [hvn] at this
            exact this
          · intro hn
            exact h6 _ hself hkey (.inr hn)
      | loop w =>
        rw [hph] at hok
        exact ⟨hok.1, hok.2.1, hok.2.2.1, fun hn y hy => hok.2.2.2 hn y (hsub y hy)⟩
      | fresh => rw [hph] at hok; exact hok
      | check w => rw [hph] at hok; exact hok
      | done => rw [hph] at hok; exact hok
      | failed => rw [hph] at hok; exact hok
  | @call v block hv =>
    refine ⟨h.mgr, h.run, h.keys, h.views, h.queue, h.tids, h.ended, h.status, h.nonempty, ?_, ?_⟩
    · intro x hx
      simp only [List.mem_append, List.mem_singleton] at hx
      rcases hx with hx | rfl
      · exact h.known x hx
      · exact hv
    · intro x hx
      simp only [List.mem_append, List.mem_singleton] at hx
      rcases hx with hx | rfl
      · exact h.queries x hx
      · exact rfl
  | @read p x hx hp =>
    have hok := h.queries x (List.mem_of_getElem? hx)
    unfold QueryOk at hok
    rw [hp] at hok
    refine h.set hx rfl ?_
    show PhaseOk q x.view.name x.lookups (afterRead q.db.lastTid)
    have hn : x.lookups = 0 := hok
    unfold afterRead
    by_cases hz : q.db.lastTid = 0
    · rw [if_pos hz]; show x.lookups ≤ 2; omega
    · rw [if_neg hz]; exact ⟨hn, by omega, Nat.le_refl _⟩
  | @check p x w hx hp =>
    have hok := h.queries x (List.mem_of_getElem? hx)
    unfold QueryOk at hok
    rw [hp] at hok
    obtain ⟨hn, h0, h1⟩ := hok
    refine h.set hx rfl ?_
    show PhaseOk q x.view.name x.lookups (afterCheck (q.status x.view.name) w)
    unfold afterCheck
    by_cases hz : needsReindex (q.status x.view.name) w = true
    · rw [if_pos hz]; exact ⟨h0, h1, by omega, by omega⟩
    · rw [if_neg hz]; show x.lookups ≤ 2; omega
  | lookup hx hp hl => exact h.lookup hx hp hl
  | @receive p x w id ch r rest hx hp hr =>
    have hok := h.queries x (List.mem_of_getElem? hx)
    unfold QueryOk at hok
    rw [hp] at hok
    obtain ⟨h0, h1, h2, h3, h4, h5, h6, h7⟩ := hok
    refine h.set hx rfl ?_
    show PhaseOk q x.view.name x.lookups (afterReceive w r)
    rcases h.mgr.waiting id ch h4 with ⟨_, _, _, e⟩ | ⟨r', e1, e2, e3, e4, e5⟩
    · rw [e] at hr; cases hr
    · rw [hr] at e2
      cases e2
      cases r with
      | none => exact h3
      | some m =>
        unfold afterReceive
        by_cases hm : w ≤ m
        · simp only [hm, if_true]; exact h3
        · simp only [hm, if_false]
          have h7' := h7 m hr
          have hn : x.lookups ≠ 2 := fun e => hm (h7'.2 e)
          refine ⟨h0, h1, by omega, ?_⟩
          intro _ y hy hk
          exact h6 y hy hk (.inl (e4 _ (h.active_work hy)))
  | background hv hz hl => exact h.looked hv hz hl
  | restart n =>
    refine ⟨Jobs.inv_new, rfl, by simp, by simp, by simp [Jobs.St.new], by simp, by simp, by simp,
      by simp [Jobs.St.new, Jobs.St.active], ?_, ?_⟩
    · intro x hx
      simp only [List.mem_map] at hx
      obtain ⟨y, hy, rfl⟩ := hx
      exact h.known y hy
    · intro x hx
      simp only [List.mem_map] at hx
      obtain ⟨y, hy, rfl⟩ := hx
      have hok := h.queries y hy
      unfold QueryOk at hok ⊢
      have : y.lookups ≤ 2 := by
        cases hph : y.phase <;> rw [hph] at hok
        · have : y.lookups = 0 := hok
          omega
        · have := hok.1
          omega
        · have := hok.2.2.1
          omega
        · have := hok.2.2.2.1
          omega
        · exact hok
        · exact hok
      show PhaseOk _ y.view.name y.lookups (Query.stop y).phase
      unfold Query.stop
      cases hph : y.phase <;> exact this

theorem qexec_inv {s : Schema} (hdv : DistinctViews s) {A : List Operation → Prop} {q q' : QSys}
    (h : QInv s q) (he : QExec s A q q') : QInv s q' := by
  induction he with
  | refl => exact h
  | step _ hs ih => exact qstep_inv hdv ih hs

end Bonsai.Store.Wait
