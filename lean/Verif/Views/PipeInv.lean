import Verif.Views.Pipeline

/-!
# An invariant of the threads that update a view
-/
set_option linter.unusedSimpArgs false
set_option linter.unusedVariables false

namespace Bonsai.Pipe

/-! ## The invariant -/

/-- How many batches were sent. -/
def St.sent (st : St) : Nat :=
  match st.g with
  | .send | .done => st.gi
  | _ => st.gi + 1

/-- The documents of batch `j` that are not sent yet. -/
def pend (c : Cfg) (st : St) (j : Nat) : List Doc :=
  if j < st.gi then [] else if j = st.gi then
    match st.g with
    | .docs rest => rest
    | .send | .read => (c.chunk j).reverse
    | .done | .failed | .panicked => []
  else (c.chunk j).reverse

def GBroken (st : St) : Prop := st.g = .failed ∨ st.g = .panicked

/-- The batch `save_mappings` failed with. -/
def SHand (s : SPc) (x : List Nat) : Prop :=
  match s with
  | .failed | .panicked => x.length = 1
  | .run | .done => x = []

/-- Something happened to batch `j`. -/
def Dirty (st : St) (j : Nat) : Prop :=
  st.gone j = true ∨ (∃ a, st.m = .work j a true) ∨ (j = st.gi ∧ GBroken st)

/-- The batch that is in the hands of `map_batches`. -/
def Hand (m : MPc) (y : List Nat) : Prop :=
  match m with
  | .work i _ _ | .send i => y = [i]
  | .failed => y.length = 1
  | .idle | .done => y = []

structure Inv (c : Cfg) (st : St) : Prop where
  gi_le : st.gi ≤ c.chunks.length
  gi_lt : st.g ≠ .send → st.g ≠ .done → st.gi < c.chunks.length
  gi_done : st.g = .done → st.gi = c.chunks.length
  qlen : st.q.length ≤ 1
  mqlen : st.mq.length ≤ 1
  order : ∃ x y, st.saved ++ x ++ st.mq ++ y ++ st.q = List.range st.sent ∧
    SHand st.s x ∧ Hand st.m y ∧ ∀ j, st.gone j = true → j ∈ y
  fresh : ∀ j, st.sent ≤ j → st.buf j = [] ∧ st.closed j = false ∧ st.got j = []
  freshRead : st.g = .read → st.buf st.gi = [] ∧ st.got st.gi = []
  closed_lt : ∀ j, j < st.gi → st.closed j = true
  closed_gi : st.closed st.gi = true ↔ GBroken st
  gone_m : ∀ j, st.gone j = true → st.m = .failed
  content : ∀ j, ¬ Dirty st j → st.got j ++ st.buf j ++ pend c st j = (c.chunk j).reverse
  lost : ∀ j, st.closed j = false →
    (∀ a f, st.m = .work j a f →
      c.workers + ((st.got j).length + (st.buf j).length + (pend c st j).length) ≤ (c.chunk j).length + a) ∧
    (st.gone j = true →
      c.workers + ((st.got j).length + (st.buf j).length + (pend c st j).length) ≤ (c.chunk j).length)
  atMost : ∀ j, (st.got j).length + (st.buf j).length + (pend c st j).length ≤ (c.chunk j).length
  settled : 1 ≤ c.workers → (∀ j ∈ st.saved ++ st.mq, st.buf j = [] ∧ st.closed j = true) ∧
    (∀ i, st.m = .send i → st.buf i = [] ∧ st.closed i = true) ∧
    (∀ i a, st.m = .work i a false → a < c.workers → st.buf i = [] ∧ st.closed i = true)
  saved_ok : ∀ j ∈ st.saved, (∀ d ∈ c.chunk j, d ∈ st.got j) ∧ c.badSave j = false
  got_ok : ∀ j, ∀ d ∈ st.got j, c.badDoc d = false
  read_ok : (∀ j, j < st.gi → c.badRead j = false) ∧ (∀ r, st.g = .docs r → c.badRead st.gi = false)
  mdone : st.m = .done → st.q = [] ∧ st.g.ended = true
  sdone : st.s = .done → st.mq = [] ∧ st.m.ended = true
  sub : ∀ j, ∀ d, (d ∈ st.got j ∨ d ∈ st.buf j ∨ d ∈ pend c st j) → d ∈ c.chunk j
  work_lt : ∀ i a f, st.m = .work i a f → i < c.chunks.length
  gfailed : st.g = .failed → c.badRead st.gi = true
  gpanic : st.g = .panicked → st.gone st.gi = true ∧ c.workers < (c.chunk st.gi).length
  mbad : (st.m = .failed ∨ ∃ i a, st.m = .work i a true) → ∃ j d, j < c.chunks.length ∧ d ∈ c.chunk j ∧ c.badDoc d = true
  sbad : st.s = .failed → ∃ j, j < c.chunks.length ∧ c.badSave j = true
  spanic : st.s = .panicked → c.workers = 0 ∨ ∃ j, j < c.chunks.length ∧ c.badRead j = true

theorem inv_init (c : Cfg) : Inv c .init := by
  refine ⟨?_, ?_, ?_, ?_, ?_, ⟨[], [], by simp [St.init, St.sent], by simp [St.init, SHand], by simp [St.init, Hand],
    by simp [St.init]⟩, ?_, ?_, ?_, ?_, ?_, ?_, ?_, ?_, ?_, ?_, ?_, ?_, ?_, ?_, ?_, ?_, ?_, ?_, ?_, ?_, ?_⟩ <;>
    grind [pend, St.sent, GBroken, Dirty, GPc.ended, MPc.ended, St.init]

theorem order_step {c : Cfg} {st st' : St} (hi : Inv c st) (hs : Step c st st') :
    ∃ x y, st'.saved ++ x ++ st'.mq ++ y ++ st'.q = List.range st'.sent ∧ SHand st'.s x ∧ Hand st'.m y ∧
      ∀ j, st'.gone j = true → j ∈ y := by
  obtain ⟨x, y, h, hx, hy, hg⟩ := hi.order
  have hq := hi.qlen
  have hm := hi.mqlen
  have hgm := hi.gone_m
  cases hs with
  | gSend h1 h2 h3 =>
    refine ⟨x, y, ?_, hx, hy, hg⟩
    simp only [St.sent, h1, h3] at h ⊢
    rw [List.append_nil] at h
    rw [h, List.range_succ]
  | gEnd h1 h2 => exact ⟨x, y, by simpa [St.sent, h1] using h, hx, hy, hg⟩
  | gRead h1 h2 => exact ⟨x, y, by simpa [St.sent, h1] using h, hx, hy, hg⟩
  | gReadErr h1 h2 => exact ⟨x, y, by simpa [St.sent, h1] using h, hx, hy, hg⟩
  | gDoc h1 h2 => exact ⟨x, y, by simpa [St.sent, h1] using h, hx, hy, hg⟩
  | gPanic h1 h2 => exact ⟨x, y, by simpa [St.sent, h1] using h, hx, hy, hg⟩
  | gNext h1 => exact ⟨x, y, by simpa [St.sent, h1] using h, hx, hy, hg⟩
  | mTake h1 h2 =>
    refine ⟨x, st.q, ?_, hx, by simp [Hand, h2], by grind⟩
    have : y = [] := by simpa [Hand, h1] using hy
    simpa [St.sent, this] using h
  | mEnd h1 h2 h3 => exact ⟨x, y, by simpa [St.sent, h1] using h, hx, by simpa [Hand, h1] using hy, hg⟩
  | wOk h1 h2 h3 => exact ⟨x, y, by simpa [St.sent, h1] using h, hx, by simpa [Hand, h1] using hy, hg⟩
  | wBad h1 h2 h3 => exact ⟨x, y, by simpa [St.sent, h1] using h, hx, by simpa [Hand, h1] using hy, hg⟩
  | wEnd h1 h2 h3 => exact ⟨x, y, by simpa [St.sent, h1] using h, hx, by simpa [Hand, h1] using hy, hg⟩
  | mFail h1 =>
    simp only [Hand, h1] at hy
    exact ⟨x, y, by simpa [St.sent, h1] using h, hx, by simp [Hand, hy], by grind [upd]⟩
  | mMapped h1 => exact ⟨x, y, by simpa [St.sent, h1] using h, hx, by simpa [Hand, h1] using hy, hg⟩
  | mSend h1 h2 =>
    refine ⟨x, [], ?_, hx, by simp [Hand], by grind⟩
    simp only [Hand, h1] at hy
    simpa [St.sent, hy, h2] using h
  | sOk h1 h2 h3 h4 =>
    refine ⟨[], y, ?_, by simp [SHand, h1], hy, hg⟩
    have : x = [] := by simpa [SHand, h1] using hx
    simpa [St.sent, this, h2] using h
  | sBad h1 h2 h3 h4 =>
    refine ⟨st.mq, y, ?_, by simp [SHand, h2], hy, hg⟩
    have : x = [] := by simpa [SHand, h1] using hx
    simpa [St.sent, this, h2] using h
  | sPanic h1 h2 h3 =>
    refine ⟨st.mq, y, ?_, by simp [SHand, h2], hy, hg⟩
    have : x = [] := by simpa [SHand, h1] using hx
    simpa [St.sent, this, h2] using h
  | sEnd h1 h2 h3 =>
    refine ⟨x, y, ?_, by simpa [SHand, h1] using hx, hy, hg⟩
    simpa [St.sent] using h

theorem chunk_none {c : Cfg} {j : Nat} (h : c.chunks.length ≤ j) : c.chunk j = [] := by
  simp [Cfg.chunk, h]

theorem Inv.sent_le {c : Cfg} {st : St} (hi : Inv c st) : st.sent ≤ c.chunks.length := by
  have h1 := hi.gi_le
  have h2 := hi.gi_lt
  grind [St.sent]

theorem Inv.mem_lt {c : Cfg} {st : St} (hi : Inv c st) {i : Nat} (h : i ∈ st.q ++ st.mq) : i < c.chunks.length := by
  obtain ⟨x, y, ho, _, _⟩ := hi.order
  have h1 : i ∈ List.range st.sent := by rw [← ho]; grind
  have h2 := hi.sent_le
  grind

theorem Inv.q_lt {c : Cfg} {st : St} (hi : Inv c st) : ∀ i, i ∈ st.q ++ st.mq → i < c.chunks.length :=
  fun _ => hi.mem_lt

/-- A batch that is waiting to be saved is complete, unless there are no workers or its documents were not read. -/
theorem Inv.whole {c : Cfg} {st : St} (hi : Inv c st) (i : Nat) (h : i ∈ st.mq) (hw : 1 ≤ c.workers)
    (hb : c.badRead i = false) : c.complete st i := by
  obtain ⟨x, y, ho, _, hy, hg⟩ := hi.order
  have hn : (st.saved ++ x ++ st.mq ++ y ++ st.q).Nodup := by rw [ho]; exact List.nodup_range
  have hny : i ∉ y := by
    intro hiy
    rw [List.append_assoc, List.append_assoc, List.append_assoc] at hn
    have := (List.nodup_append.1 (List.nodup_append.1 (List.nodup_append.1 hn).2.1).2.1).2.2 i h i (by simp [hiy])
    exact this rfl
  have hng : st.gone i ≠ true := fun h' => hny (hg i h')
  have hwk : ∀ a, st.m ≠ .work i a true := by
    intro a h'
    rw [h'] at hy
    exact hny (by simp [Hand] at hy; simp [hy])
  have hset := (hi.settled hw).1 i (by simp [h])
  have hcl := hi.closed_gi
  have hgf := hi.gfailed
  have hgp := hi.gpanic
  have hfr := hi.fresh
  have hdirty : ¬ Dirty st i := by
    grind [Dirty, GBroken]
  have hc := hi.content i hdirty
  have hpend : pend c st i = [] := by
    have hle : i < st.sent := by
      refine Classical.byContradiction fun h1 => ?_
      have := (hfr i (by omega)).2.1
      rw [hset.2] at this; cases this
    have hle2 : st.sent ≤ st.gi + 1 := by
      unfold St.sent
      split <;> omega
    have hne : i ≠ st.gi := by
      rintro rfl
      exact hdirty (Or.inr (Or.inr ⟨rfl, hcl.1 hset.2⟩))
    have : i < st.gi := by omega
    simp [pend, this]
  rw [hset.1, hpend, List.append_nil, List.append_nil] at hc
  intro d hd
  rw [hc]
  simpa using hd

set_option maxHeartbeats 4000000 in
theorem inv_step {c : Cfg} {st st' : St} (hi : Inv c st) (hs : Step c st st') : Inv c st' := by
  have ho := order_step hi hs
  have hl := hi.sent_le
  have hw := hi.q_lt
  have hp := @Inv.whole c st hi
  obtain ⟨gi_le, gi_lt, gi_done, qlen, mqlen, order, fresh, freshRead, closed_lt, closed_gi, gone_m, content, lost, atMost,
    settled, saved_ok, got_ok, read_ok, mdone, sdone, sub, work_lt, gfailed, gpanic, mbad, sbad, spanic⟩ := hi
  clear order
  cases hs with
  | gSend h1 h2 h3 =>
    refine ⟨?_, ?_, ?_, ?_, ?_, ho, ?_, ?_, ?_, ?_, ?_, ?_, ?_, ?_, ?_, ?_, ?_, ?_, ?_, ?_, ?_, ?_, ?_, ?_, ?_, ?_, ?_⟩ <;> clear ho hp <;>
      grind [pend, St.sent, GBroken, Dirty, upd, GPc.ended, MPc.ended, Cfg.complete, chunk_none]
  | gEnd h1 h2 =>
    refine ⟨?_, ?_, ?_, ?_, ?_, ho, ?_, ?_, ?_, ?_, ?_, ?_, ?_, ?_, ?_, ?_, ?_, ?_, ?_, ?_, ?_, ?_, ?_, ?_, ?_, ?_, ?_⟩ <;> clear ho hp <;>
      grind [pend, St.sent, GBroken, Dirty, upd, GPc.ended, MPc.ended, Cfg.complete, chunk_none]
  | gRead h1 h2 =>
    refine ⟨?_, ?_, ?_, ?_, ?_, ho, ?_, ?_, ?_, ?_, ?_, ?_, ?_, ?_, ?_, ?_, ?_, ?_, ?_, ?_, ?_, ?_, ?_, ?_, ?_, ?_, ?_⟩ <;> clear ho hp <;>
      grind [pend, St.sent, GBroken, Dirty, upd, GPc.ended, MPc.ended, Cfg.complete, chunk_none]
  | gReadErr h1 h2 =>
    refine ⟨?_, ?_, ?_, ?_, ?_, ho, ?_, ?_, ?_, ?_, ?_, ?_, ?_, ?_, ?_, ?_, ?_, ?_, ?_, ?_, ?_, ?_, ?_, ?_, ?_, ?_, ?_⟩ <;> clear ho hp <;>
      grind [pend, St.sent, GBroken, Dirty, upd, GPc.ended, MPc.ended, Cfg.complete, chunk_none]
  | gDoc h1 h2 =>
    refine ⟨?_, ?_, ?_, ?_, ?_, ho, ?_, ?_, ?_, ?_, ?_, ?_, ?_, ?_, ?_, ?_, ?_, ?_, ?_, ?_, ?_, ?_, ?_, ?_, ?_, ?_, ?_⟩ <;> clear ho hp <;>
      grind [pend, St.sent, GBroken, Dirty, upd, GPc.ended, MPc.ended, Cfg.complete, chunk_none]
  | gPanic h1 h2 =>
    refine ⟨?_, ?_, ?_, ?_, ?_, ho, ?_, ?_, ?_, ?_, ?_, ?_, ?_, ?_, ?_, ?_, ?_, ?_, ?_, ?_, ?_, ?_, ?_, ?_, ?_, ?_, ?_⟩ <;> clear ho hp <;>
      grind [pend, St.sent, GBroken, Dirty, upd, GPc.ended, MPc.ended, Cfg.complete, chunk_none]
  | gNext h1 =>
    refine ⟨?_, ?_, ?_, ?_, ?_, ho, ?_, ?_, ?_, ?_, ?_, ?_, ?_, ?_, ?_, ?_, ?_, ?_, ?_, ?_, ?_, ?_, ?_, ?_, ?_, ?_, ?_⟩ <;> clear ho hp <;>
      grind [pend, St.sent, GBroken, Dirty, upd, GPc.ended, MPc.ended, Cfg.complete, chunk_none]
  | mTake h1 h2 =>
    have h0 := hw _ (show _ ∈ st.q ++ st.mq by rw [h2]; exact List.mem_cons_self)
    refine ⟨?_, ?_, ?_, ?_, ?_, ho, ?_, ?_, ?_, ?_, ?_, ?_, ?_, ?_, ?_, ?_, ?_, ?_, ?_, ?_, ?_, ?_, ?_, ?_, ?_, ?_, ?_⟩ <;> clear ho hp <;>
      grind [pend, St.sent, GBroken, Dirty, upd, GPc.ended, MPc.ended, Cfg.complete, chunk_none]
  | mEnd h1 h2 h3 =>
    refine ⟨?_, ?_, ?_, ?_, ?_, ho, ?_, ?_, ?_, ?_, ?_, ?_, ?_, ?_, ?_, ?_, ?_, ?_, ?_, ?_, ?_, ?_, ?_, ?_, ?_, ?_, ?_⟩ <;> clear ho hp <;>
      grind [pend, St.sent, GBroken, Dirty, upd, GPc.ended, MPc.ended, Cfg.complete, chunk_none]
  | wOk h1 h2 h3 =>
    refine ⟨?_, ?_, ?_, ?_, ?_, ho, ?_, ?_, ?_, ?_, ?_, ?_, ?_, ?_, ?_, ?_, ?_, ?_, ?_, ?_, ?_, ?_, ?_, ?_, ?_, ?_, ?_⟩ <;> clear ho hp <;>
      grind [pend, St.sent, GBroken, Dirty, upd, GPc.ended, MPc.ended, Cfg.complete, chunk_none]
  | wBad h1 h2 h3 =>
    refine ⟨?_, ?_, ?_, ?_, ?_, ho, ?_, ?_, ?_, ?_, ?_, ?_, ?_, ?_, ?_, ?_, ?_, ?_, ?_, ?_, ?_, ?_, ?_, ?_, ?_, ?_, ?_⟩ <;> clear ho hp <;>
      grind [pend, St.sent, GBroken, Dirty, upd, GPc.ended, MPc.ended, Cfg.complete, chunk_none]
  | @wEnd i a f h1 h2 h3 =>
    have h0 : f = true → ∃ j d, j < c.chunks.length ∧ d ∈ c.chunk j ∧ c.badDoc d = true := by
      intro e; rw [e] at h1; exact mbad (Or.inr ⟨_, _, h1⟩)
    refine ⟨?_, ?_, ?_, ?_, ?_, ho, ?_, ?_, ?_, ?_, ?_, ?_, ?_, ?_, ?_, ?_, ?_, ?_, ?_, ?_, ?_, ?_, ?_, ?_, ?_, ?_, ?_⟩ <;> clear ho hp <;>
      grind [pend, St.sent, GBroken, Dirty, upd, GPc.ended, MPc.ended, Cfg.complete, chunk_none]
  | mFail h1 =>
    have h0 := mbad (Or.inr ⟨_, _, h1⟩)
    refine ⟨?_, ?_, ?_, ?_, ?_, ho, ?_, ?_, ?_, ?_, ?_, ?_, ?_, ?_, ?_, ?_, ?_, ?_, ?_, ?_, ?_, ?_, ?_, ?_, ?_, ?_, ?_⟩ <;> clear ho hp <;>
      grind [pend, St.sent, GBroken, Dirty, upd, GPc.ended, MPc.ended, Cfg.complete, chunk_none]
  | mMapped h1 =>
    refine ⟨?_, ?_, ?_, ?_, ?_, ho, ?_, ?_, ?_, ?_, ?_, ?_, ?_, ?_, ?_, ?_, ?_, ?_, ?_, ?_, ?_, ?_, ?_, ?_, ?_, ?_, ?_⟩ <;> clear ho hp <;>
      grind [pend, St.sent, GBroken, Dirty, upd, GPc.ended, MPc.ended, Cfg.complete, chunk_none]
  | mSend h1 h2 =>
    refine ⟨?_, ?_, ?_, ?_, ?_, ho, ?_, ?_, ?_, ?_, ?_, ?_, ?_, ?_, ?_, ?_, ?_, ?_, ?_, ?_, ?_, ?_, ?_, ?_, ?_, ?_, ?_⟩ <;> clear ho hp <;>
      grind [pend, St.sent, GBroken, Dirty, upd, GPc.ended, MPc.ended, Cfg.complete, chunk_none]
  | sOk h1 h2 h3 h4 =>
    have h0 := hw _ (show _ ∈ st.q ++ st.mq by rw [h2]; exact List.mem_append_right _ List.mem_cons_self)
    refine ⟨?_, ?_, ?_, ?_, ?_, ho, ?_, ?_, ?_, ?_, ?_, ?_, ?_, ?_, ?_, ?_, ?_, ?_, ?_, ?_, ?_, ?_, ?_, ?_, ?_, ?_, ?_⟩ <;> clear ho hp <;>
      grind [pend, St.sent, GBroken, Dirty, upd, GPc.ended, MPc.ended, Cfg.complete, chunk_none]
  | sBad h1 h2 h3 h4 =>
    have h0 := hw _ (show _ ∈ st.q ++ st.mq by rw [h2]; exact List.mem_append_right _ List.mem_cons_self)
    refine ⟨?_, ?_, ?_, ?_, ?_, ho, ?_, ?_, ?_, ?_, ?_, ?_, ?_, ?_, ?_, ?_, ?_, ?_, ?_, ?_, ?_, ?_, ?_, ?_, ?_, ?_, ?_⟩ <;> clear ho hp <;>
      grind [pend, St.sent, GBroken, Dirty, upd, GPc.ended, MPc.ended, Cfg.complete, chunk_none]
  | sPanic h1 h2 h3 =>
    have h0 := hw _ (show _ ∈ st.q ++ st.mq by rw [h2]; exact List.mem_append_right _ List.mem_cons_self)
    refine ⟨?_, ?_, ?_, ?_, ?_, ho, ?_, ?_, ?_, ?_, ?_, ?_, ?_, ?_, ?_, ?_, ?_, ?_, ?_, ?_, ?_, ?_, ?_, ?_, ?_, ?_, ?_⟩ <;> clear ho <;>
      grind [pend, St.sent, GBroken, Dirty, upd, GPc.ended, MPc.ended, Cfg.complete, chunk_none]
  | sEnd h1 h2 h3 =>
    refine ⟨?_, ?_, ?_, ?_, ?_, ho, ?_, ?_, ?_, ?_, ?_, ?_, ?_, ?_, ?_, ?_, ?_, ?_, ?_, ?_, ?_, ?_, ?_, ?_, ?_, ?_, ?_⟩ <;> clear ho hp <;>
      grind [pend, St.sent, GBroken, Dirty, upd, GPc.ended, MPc.ended, Cfg.complete, chunk_none]

end Bonsai.Pipe
