import Verif.Views.PipeInv

/-!
# C91: updating a view ends, with everything saved or an error
-/
set_option linter.unusedSimpArgs false
set_option linter.unusedVariables false

namespace Bonsai.Pipe

theorem inv_steps {c : Cfg} {st : St} {n : Nat} (h : Steps c .init st n) : Inv c st := by
  induction h with
  | refl => exact inv_init c
  | step _ h2 ih => exact inv_step ih h2

/-! ## Specification -/

/-- Nothing goes wrong with this update. -/
structure Clean (c : Cfg) : Prop where
  docs : ∀ chunk ∈ c.chunks, ∀ d ∈ chunk, c.badDoc d = false
  reads : ∀ j, j < c.chunks.length → c.badRead j = false
  saves : ∀ j, j < c.chunks.length → c.badSave j = false

/-- No thread can go on, and not all of them have ended: `Parallel::run` waits forever. -/
def Hangs (c : Cfg) (st : St) : Prop := st.ended = false ∧ ∀ st', ¬ Step c st st'

theorem chunk_mem {c : Cfg} {j : Nat} {d : Doc} (h : d ∈ c.chunk j) : ∃ chunk ∈ c.chunks, d ∈ chunk := by
  simp only [Cfg.chunk] at h
  cases he : c.chunks[j]? with
  | none => rw [he] at h; simp at h
  | some l => rw [he] at h; exact ⟨l, List.mem_of_getElem? he, by simpa using h⟩

/-! ## An update that succeeds -/

/-- An update that succeeds has saved every batch exactly once, in order, each with the mapping of each of its documents
exactly once, and nothing has failed on the way: an error is never lost. -/
theorem C91_ok_sound (c : Cfg) (st : St) (n : Nat) (h : Steps c .init st n) (he : st.ended = true)
    (ho : st.outcome = .ok) (hw : 1 ≤ c.workers) :
    st.saved = List.range c.chunks.length ∧ Clean c ∧
    ∀ j chunk, c.chunks[j]? = some chunk → st.got j = chunk.reverse := by
  have hi := inv_steps h
  have hg : st.g = .done := by
    simp only [St.outcome] at ho; simp only [St.ended, GPc.ended] at he
    cases hg : st.g <;> cases hm : st.m <;> cases hs : st.s <;> simp [hg, hm, hs, MPc.ended, SPc.ended] at ho he ⊢
  have hm : st.m = .done := by
    simp only [St.outcome] at ho; simp only [St.ended, MPc.ended] at he
    cases hg : st.g <;> cases hm : st.m <;> cases hs : st.s <;> simp [hg, hm, hs, GPc.ended, SPc.ended] at ho he ⊢
  have hs : st.s = .done := by
    simp only [St.outcome] at ho; simp only [St.ended, MPc.ended] at he
    cases hg : st.g <;> cases hm : st.m <;> cases hs : st.s <;> simp [hg, hm, hs, GPc.ended, SPc.ended] at ho he ⊢
  have hgi := hi.gi_done hg
  obtain ⟨x, y, hord, hx, hy, hgn⟩ := hi.order
  have hx' : x = [] := by simpa [SHand, hs] using hx
  have hy' : y = [] := by simpa [Hand, hm] using hy
  have hq := (hi.mdone hm).1
  have hmq := (hi.sdone hs).1
  have hsent : st.sent = c.chunks.length := by simp [St.sent, hg, hgi]
  have hsaved : st.saved = List.range c.chunks.length := by
    simpa [hx', hy', hq, hmq, hsent] using hord
  have hgot : ∀ j, j < c.chunks.length → st.got j = (c.chunk j).reverse := by
    intro j hj
    have hd : ¬ Dirty st j := by
      rintro (h1 | ⟨a, h1⟩ | ⟨_, h1⟩)
      · simpa [hy'] using hgn j h1
      · rw [hm] at h1; cases h1
      · rcases h1 with h1 | h1 <;> (rw [hg] at h1; cases h1)
    have h1 := hi.content j hd
    have h2 := ((hi.settled hw).1 j (by rw [hsaved]; simp [hj])).1
    have h3 : pend c st j = [] := by simp [pend, hgi, hj]
    simpa [h2, h3] using h1
  refine ⟨hsaved, ⟨?_, ?_, ?_⟩, ?_⟩
  · intro chunk hc d hd
    obtain ⟨j, hj⟩ := List.getElem?_of_mem hc
    have hjl : j < c.chunks.length := by
      rcases Nat.lt_or_ge j c.chunks.length with h1 | h1
      · exact h1
      · rw [List.getElem?_eq_none h1] at hj; cases hj
    have : c.chunk j = chunk := by simp [Cfg.chunk, hj]
    exact hi.got_ok j d (by rw [hgot j hjl, this]; simpa using hd)
  · intro j hj
    exact hi.read_ok.1 j (by omega)
  · intro j hj
    exact (hi.saved_ok j (by rw [hsaved]; simp [hj])).2
  · intro j chunk hj
    have hjl : j < c.chunks.length := by
      rcases Nat.lt_or_ge j c.chunks.length with h1 | h1
      · exact h1
      · rw [List.getElem?_eq_none h1] at hj; cases hj
    rw [hgot j hjl]; simp [Cfg.chunk, hj]

/-- If nothing goes wrong, no thread fails or panics at any point of any execution: an update that ends succeeds. -/
theorem C91_clean (c : Cfg) (hc : Clean c) (hw : 1 ≤ c.workers) (st : St) (n : Nat) (h : Steps c .init st n)
    (he : st.ended = true) : st.outcome = .ok := by
  have hi := inv_steps h
  have h1 : st.g ≠ .failed := fun e => by
    have := hc.reads st.gi (hi.gi_lt (by simp [e]) (by simp [e])); simp [hi.gfailed e] at this
  have h3 : st.m ≠ .failed := fun e => by
    obtain ⟨j, d, hj, hd, hb⟩ := hi.mbad (Or.inl e)
    obtain ⟨l, hl, hd⟩ := chunk_mem hd
    simp [hc.docs l hl d hd] at hb
  have h2 : st.g ≠ .panicked := fun e => h3 (hi.gone_m _ (hi.gpanic e).1)
  have h4 : st.s ≠ .failed := fun e => by
    obtain ⟨j, hj, hb⟩ := hi.sbad e; simp [hc.saves j hj] at hb
  have h5 : st.s ≠ .panicked := fun e => by
    rcases hi.spanic e with h0 | ⟨j, hj, hb⟩
    · omega
    · simp [hc.reads j hj] at hb
  unfold St.outcome
  split <;> simp_all

/-! ## No execution goes on forever -/

/-- The sum of `f` over `0..n`. -/
def sumTo (n : Nat) (f : Nat → Nat) : Nat := ((List.range n).map f).sum

theorem sumTo_succ (n : Nat) (f : Nat → Nat) : sumTo (n + 1) f = sumTo n f + f n := by
  simp [sumTo, List.range_succ]

theorem sumTo_le {n : Nat} {f g : Nat → Nat} (h : ∀ j, j < n → f j ≤ g j) : sumTo n f ≤ sumTo n g := by
  induction n with
  | zero => simp [sumTo]
  | succ n ih =>
    rw [sumTo_succ, sumTo_succ]
    have := ih fun j hj => h j (by omega)
    have := h n (by omega)
    omega

theorem sumTo_lt {n i : Nat} {f g : Nat → Nat} (h : ∀ j, j < n → f j ≤ g j) (hi : i < n) (hl : f i < g i) :
    sumTo n f < sumTo n g := by
  induction n with
  | zero => omega
  | succ n ih =>
    rw [sumTo_succ, sumTo_succ]
    have h1 := sumTo_le (n := n) fun j hj => h j (by omega)
    rcases Nat.lt_or_ge i n with h2 | h2
    · have := ih (fun j hj => h j (by omega)) h2
      have := h n (by omega)
      omega
    · have : i = n := by omega
      subst this
      omega

def GPc.weight : GPc → Nat
  | .send => 1
  | .docs _ => 2
  | .read => 3
  | .done | .failed | .panicked => 0

def MPc.weight : MPc → Nat
  | .idle => 1
  | .work _ a _ => a + 4
  | .send _ => 3
  | .done | .failed => 0

def SPc.weight : SPc → Nat
  | .run => 1
  | _ => 0

/-- What an execution has left to do. -/
def fuel (c : Cfg) (st : St) : Nat :=
  sumTo c.chunks.length (fun j => 2 * (pend c st j).length + (st.buf j).length) +
  (c.workers + 9) * (c.chunks.length - st.sent) + st.g.weight + (c.workers + 5) * st.q.length + st.m.weight +
  st.mq.length + st.s.weight

theorem fuel_step {c : Cfg} {st st' : St} (hi : Inv c st) (hs : Step c st st') : fuel c st' < fuel c st := by
  have hsl := hi.sent_le
  have hwl := hi.work_lt
  have hgl := hi.gi_lt
  cases hs with
  | gSend h1 h2 h3 =>
    have e : ∀ j, pend c { st with q := [st.gi], g := .read } j = pend c st j := by
      intro j; simp only [pend, h1]
    simp only [fuel, e]
    simp only [St.sent, h1, h3, GPc.weight, List.length_nil, List.length_singleton]
    have : c.chunks.length - st.gi = (c.chunks.length - (st.gi + 1)) + 1 := by omega
    rw [this, Nat.mul_add]
    omega
  | gEnd h1 h2 =>
    have e := sumTo_le (n := c.chunks.length) (f := fun j => 2 * (pend c { st with g := .done } j).length + (st.buf j).length)
      (g := fun j => 2 * (pend c st j).length + (st.buf j).length) (by intro j hj; grind [pend])
    simp only [fuel, GPc.weight, h1]
    simp only [St.sent, h1]
    omega
  | gRead h1 h2 =>
    have e : ∀ j, pend c { st with g := .docs (c.chunk st.gi).reverse } j = pend c st j := by
      intro j; simp only [pend, h1]; grind
    simp only [fuel, e]
    simp only [St.sent, h1, GPc.weight]
    omega
  | gReadErr h1 h2 =>
    have e := sumTo_le (n := c.chunks.length)
      (f := fun j => 2 * (pend c { st with g := .failed, closed := upd st.closed st.gi true } j).length + (st.buf j).length)
      (g := fun j => 2 * (pend c st j).length + (st.buf j).length) (by intro j hj; grind [pend])
    simp only [fuel, GPc.weight, h1]
    simp only [St.sent, h1]
    omega
  | @gDoc d rest h1 h2 =>
    have e := sumTo_lt (n := c.chunks.length) (i := st.gi)
      (f := fun j => 2 * (pend c { st with g := .docs rest, buf := upd st.buf st.gi (st.buf st.gi ++ [d]) } j).length +
        (upd st.buf st.gi (st.buf st.gi ++ [d]) j).length)
      (g := fun j => 2 * (pend c st j).length + (st.buf j).length)
      (by intro j hj; grind [pend, upd]) (hgl (by simp [h1]) (by simp [h1])) (by grind [pend, upd])
    simp only [fuel, GPc.weight, h1]
    simp only [St.sent, h1]
    omega
  | gPanic h1 h2 =>
    have e := sumTo_le (n := c.chunks.length)
      (f := fun j => 2 * (pend c { st with g := .panicked, closed := upd st.closed st.gi true } j).length + (st.buf j).length)
      (g := fun j => 2 * (pend c st j).length + (st.buf j).length) (by intro j hj; grind [pend])
    simp only [fuel, GPc.weight, h1]
    simp only [St.sent, h1]
    omega
  | gNext h1 =>
    have e := sumTo_le (n := c.chunks.length)
      (f := fun j => 2 * (pend c { st with g := .send, gi := st.gi + 1, closed := upd st.closed st.gi true } j).length +
        (st.buf j).length)
      (g := fun j => 2 * (pend c st j).length + (st.buf j).length) (by intro j hj; grind [pend])
    simp only [fuel, GPc.weight, h1]
    simp only [St.sent, h1]
    omega
  | @mTake i h1 h2 =>
    have e : ∀ j, pend c { st with q := [], m := .work i c.workers false } j = pend c st j := fun _ => rfl
    have e2 : St.sent { st with q := [], m := .work i c.workers false } = st.sent := rfl
    simp only [fuel, e, e2]
    simp only [h1, h2, MPc.weight, List.length_nil, List.length_singleton]
    omega
  | mEnd h1 h2 h3 =>
    have e : ∀ j, pend c { st with m := .done } j = pend c st j := fun _ => rfl
    have e2 : St.sent { st with m := .done } = st.sent := rfl
    simp only [fuel, e, e2, h1, MPc.weight]
    omega
  | @wOk i a f d rest h1 h2 h3 =>
    have e := sumTo_lt (n := c.chunks.length) (i := i)
      (f := fun j => 2 * (pend c { st with buf := upd st.buf i rest, got := upd st.got i (st.got i ++ [d]) } j).length +
        (upd st.buf i rest j).length)
      (g := fun j => 2 * (pend c st j).length + (st.buf j).length)
      (by intro j hj; grind [pend, upd]) (hwl _ _ _ h1) (by grind [pend, upd])
    have e2 : St.sent { st with buf := upd st.buf i rest, got := upd st.got i (st.got i ++ [d]) } = st.sent := rfl
    simp only [fuel, e2]
    omega
  | @wBad i a f d rest h1 h2 h3 =>
    have e := sumTo_lt (n := c.chunks.length) (i := i)
      (f := fun j => 2 * (pend c { st with buf := upd st.buf i rest, m := .work i a true } j).length +
        (upd st.buf i rest j).length)
      (g := fun j => 2 * (pend c st j).length + (st.buf j).length)
      (by intro j hj; grind [pend, upd]) (hwl _ _ _ h1) (by grind [pend, upd])
    have e2 : St.sent { st with buf := upd st.buf i rest, m := .work i a true } = st.sent := rfl
    simp only [fuel, e2, h1, MPc.weight]
    omega
  | @wEnd i a f h1 h2 h3 =>
    have e : ∀ j, pend c { st with m := .work i a f } j = pend c st j := fun _ => rfl
    have e2 : St.sent { st with m := .work i a f } = st.sent := rfl
    simp only [fuel, e, e2, h1, MPc.weight]
    omega
  | @mFail i h1 =>
    have e : ∀ j, pend c { st with m := .failed, gone := upd st.gone i true } j = pend c st j := fun _ => rfl
    have e2 : St.sent { st with m := .failed, gone := upd st.gone i true } = st.sent := rfl
    simp only [fuel, e, e2, h1, MPc.weight]
    omega
  | @mMapped i h1 =>
    have e : ∀ j, pend c { st with m := .send i } j = pend c st j := fun _ => rfl
    have e2 : St.sent { st with m := .send i } = st.sent := rfl
    simp only [fuel, e, e2, h1, MPc.weight]
    omega
  | @mSend i h1 h2 =>
    have e : ∀ j, pend c { st with m := .idle, mq := [i] } j = pend c st j := fun _ => rfl
    have e2 : St.sent { st with m := .idle, mq := [i] } = st.sent := rfl
    simp only [fuel, e, e2]
    simp only [h1, h2, MPc.weight, List.length_nil, List.length_singleton]
    omega
  | @sOk i h1 h2 h3 h4 =>
    have e : ∀ j, pend c { st with mq := [], saved := st.saved ++ [i] } j = pend c st j := fun _ => rfl
    have e2 : St.sent { st with mq := [], saved := st.saved ++ [i] } = st.sent := rfl
    simp only [fuel, e, e2]
    simp only [h2, List.length_nil, List.length_singleton]
    omega
  | sBad h1 h2 h3 h4 =>
    have e : ∀ j, pend c { st with mq := [], s := .failed } j = pend c st j := fun _ => rfl
    have e2 : St.sent { st with mq := [], s := .failed } = st.sent := rfl
    simp only [fuel, e, e2]
    simp only [h1, h2, SPc.weight, List.length_nil, List.length_singleton]
    omega
  | sPanic h1 h2 h3 =>
    have e : ∀ j, pend c { st with mq := [], s := .panicked } j = pend c st j := fun _ => rfl
    have e2 : St.sent { st with mq := [], s := .panicked } = st.sent := rfl
    simp only [fuel, e, e2]
    simp only [h1, h2, SPc.weight, List.length_nil, List.length_singleton]
    omega
  | sEnd h1 h2 h3 =>
    have e : ∀ j, pend c { st with s := .done } j = pend c st j := fun _ => rfl
    have e2 : St.sent { st with s := .done } = st.sent := rfl
    simp only [fuel, e, e2, h1, SPc.weight]
    omega

theorem sumTo_chunks (l : List (List Doc)) :
    sumTo l.length (fun j => 2 * ((l[j]?).getD []).length) = 2 * l.flatten.length := by
  induction l with
  | nil => simp [sumTo]
  | cons a l ih =>
    have : ∀ n (f : Nat → Nat), sumTo (n + 1) f = f 0 + sumTo n (fun j => f (j + 1)) := by
      intro n f
      simp [sumTo, List.range_succ_eq_map, List.map_map, Function.comp_def]
    rw [List.length_cons, this]
    simp only [List.getElem?_cons_zero, List.getElem?_cons_succ, Option.getD_some, ih, List.flatten_cons,
      List.length_append]
    omega

/-- No execution takes more than `2·documents + (workers + 9)·batches + 3` steps, whatever goes wrong: the threads cannot
go on forever. -/
theorem C91_bounded (c : Cfg) (st : St) (n : Nat) (h : Steps c .init st n) :
    n ≤ 2 * c.chunks.flatten.length + (c.workers + 9) * c.chunks.length + 3 := by
  have key : n + fuel c st ≤ fuel c .init := by
    induction h with
    | refl => omega
    | step h1 h2 ih =>
      have := fuel_step (inv_steps h1) h2
      omega
  have : fuel c .init = 2 * c.chunks.flatten.length + (c.workers + 9) * c.chunks.length + 3 := by
    have e : (fun j => 2 * (pend c St.init j).length + (St.init.buf j).length) =
        fun j => 2 * ((c.chunks[j]?).getD []).length := by
      funext j
      simp only [pend, St.init]
      by_cases hj : j = 0 <;> simp [hj, Cfg.chunk]
    unfold fuel
    rw [e, sumTo_chunks]
    simp [St.init, St.sent, GPc.weight, MPc.weight, SPc.weight]
  omega

/-! ## When the threads wait forever -/

/-- `map_batches` returned an error while `generate_batches` waits for room for another batch: the receiver still
exists, so `send` neither succeeds nor fails. -/
def HangMap (c : Cfg) (st : St) : Prop := st.m = .failed ∧ st.g = .send ∧ st.gi < c.chunks.length ∧ st.q ≠ []

/-- `save_mappings` failed while `map_batches` waits for room for another mapped batch. -/
def HangSave (st : St) : Prop := (st.s = .failed ∨ st.s = .panicked) ∧ (∃ i, st.m = .send i) ∧ st.mq ≠ []

theorem len1 {l : List Nat} (h : l.length ≤ 1) : l = [] ∨ ∃ i, l = [i] := by
  match l, h with
  | [], _ => exact Or.inl rfl
  | [i], _ => exact Or.inr ⟨i, rfl⟩

theorem progress {c : Cfg} {st : St} (hi : Inv c st) (he : st.ended = false) :
    (∃ st', Step c st st') ∨ HangMap c st ∨ HangSave st := by
  have hq := len1 hi.qlen
  have hmq := len1 hi.mqlen
  have hsv : st.s = .run → st.mq ≠ [] → ∃ st', Step c st st' := by
    intro hs h
    rcases hmq with h1 | ⟨k, hk⟩
    · exact absurd h1 h
    · by_cases hc : c.complete st k
      · cases hb : c.badSave k with
        | false => exact ⟨_, .sOk hs hk hc hb⟩
        | true => exact ⟨_, .sBad hs hk hc hb⟩
      · exact ⟨_, .sPanic hs hk hc⟩
  have hgen : (∃ st', Step c st st') ∨ st.g.ended = true ∨ (st.g = .send ∧ st.gi < c.chunks.length ∧ st.q ≠ []) := by
    cases hg : st.g with
    | send =>
      rcases Nat.lt_or_ge st.gi c.chunks.length with h1 | h1
      · by_cases h2 : st.q = []
        · exact Or.inl ⟨_, .gSend hg h1 h2⟩
        · exact Or.inr (Or.inr ⟨rfl, h1, h2⟩)
      · exact Or.inl ⟨_, .gEnd hg (by have := hi.gi_le; omega)⟩
    | read =>
      cases hb : c.badRead st.gi with
      | false => exact Or.inl ⟨_, .gRead hg hb⟩
      | true => exact Or.inl ⟨_, .gReadErr hg hb⟩
    | docs r =>
      cases r with
      | nil => exact Or.inl ⟨_, .gNext hg⟩
      | cons d r =>
        cases hb : st.gone st.gi with
        | false => exact Or.inl ⟨_, .gDoc hg hb⟩
        | true => exact Or.inl ⟨_, .gPanic hg hb⟩
    | done => exact Or.inr (Or.inl rfl)
    | failed => exact Or.inr (Or.inl rfl)
    | panicked => exact Or.inr (Or.inl rfl)
  rcases hgen with h | hgen
  · exact Or.inl h
  cases hm : st.m with
  | idle =>
    rcases hq with h1 | ⟨i, h1⟩
    · rcases hgen with h2 | h2
      · exact Or.inl ⟨_, .mEnd hm h1 h2⟩
      · exact absurd h1 h2.2.2
    · exact Or.inl ⟨_, .mTake hm h1⟩
  | work i a f =>
    cases a with
    | zero =>
      cases f with
      | false => exact Or.inl ⟨_, .mMapped hm⟩
      | true => exact Or.inl ⟨_, .mFail hm⟩
    | succ a =>
      cases hb : st.buf i with
      | cons d r =>
        cases hd : c.badDoc d with
        | false => exact Or.inl ⟨_, .wOk hm hb hd⟩
        | true => exact Or.inl ⟨_, .wBad hm hb hd⟩
      | nil =>
        refine Or.inl ⟨_, .wEnd hm hb ?_⟩
        obtain ⟨x, y, ho, _, hy, _⟩ := hi.order
        have hy' : y = [i] := by simpa [Hand, hm] using hy
        have hlt : i < st.sent := by
          have : i ∈ List.range st.sent := by rw [← ho, hy']; simp
          simpa using this
        rcases Nat.lt_or_ge i st.gi with h1 | h1
        · exact hi.closed_lt i h1
        · have h3 : i = st.gi ∧ GBroken st := by
            rcases hgen with h2 | h2
            · cases hg : st.g <;> simp [hg, GPc.ended, St.sent, GBroken] at h2 hlt ⊢ <;> omega
            · rw [St.sent, h2.1] at hlt; simp at hlt; omega
          rw [h3.1]
          exact hi.closed_gi.2 h3.2
  | send i =>
    by_cases h1 : st.mq = []
    · exact Or.inl ⟨_, .mSend hm h1⟩
    · cases hs : st.s with
      | run => exact Or.inl (hsv hs h1)
      | done => exact absurd (hi.sdone hs).1 h1
      | failed => exact Or.inr (Or.inr ⟨Or.inl hs, ⟨i, hm⟩, h1⟩)
      | panicked => exact Or.inr (Or.inr ⟨Or.inr hs, ⟨i, hm⟩, h1⟩)
  | done =>
    cases hs : st.s with
    | run =>
      by_cases h1 : st.mq = []
      · exact Or.inl ⟨_, .sEnd hs h1 (by simp [hm, MPc.ended])⟩
      · exact Or.inl (hsv hs h1)
    | _ => simp [St.ended, hm, hs, MPc.ended, SPc.ended, (hi.mdone hm).2] at he
  | failed =>
    cases hs : st.s with
    | run =>
      by_cases h1 : st.mq = []
      · exact Or.inl ⟨_, .sEnd hs h1 (by simp [hm, MPc.ended])⟩
      · exact Or.inl (hsv hs h1)
    | _ =>
      rcases hgen with h2 | h2
      · simp [St.ended, hm, hs, MPc.ended, SPc.ended, h2] at he
      · exact Or.inr (Or.inl ⟨hm, h2.1, h2.2.1, h2.2.2⟩)

theorem hangMap_three {c : Cfg} {st : St} (hi : Inv c st) (h : HangMap c st) : 3 ≤ c.chunks.length := by
  obtain ⟨hm, hg, hl, hq⟩ := h
  obtain ⟨x, y, ho, _, hy, _⟩ := hi.order
  have h1 : y.length = 1 := by simpa [Hand, hm] using hy
  have h2 := congrArg List.length ho
  have h3 : st.q.length ≠ 0 := by simpa using hq
  simp [St.sent, hg] at h2
  omega

theorem hangSave_three {c : Cfg} {st : St} (hi : Inv c st) (h : HangSave st) : 3 ≤ c.chunks.length := by
  obtain ⟨hs, ⟨i, hm⟩, hq⟩ := h
  obtain ⟨x, y, ho, hx, hy, _⟩ := hi.order
  have h1 : y.length = 1 := by simp [Hand, hm] at hy; simp [hy]
  have h4 : x.length = 1 := by rcases hs with hs | hs <;> simpa [SHand, hs] using hx
  have h2 := congrArg List.length ho
  have h3 : st.mq.length ≠ 0 := by simpa using hq
  have h5 := hi.sent_le
  simp at h2
  omega

/-- An update of at most two batches (2048 documents) never waits forever, whatever goes wrong: some thread can always go
on until all have ended.  With `C91_bounded`: it ends.  Missing: more than two batches, see `C91_violated_hang_map`. -/
theorem C91_ends_partial (c : Cfg) (h2 : c.chunks.length ≤ 2) (st : St) (n : Nat) (h : Steps c .init st n) :
    ¬ Hangs c st := by
  rintro ⟨he, hn⟩
  rcases progress (inv_steps h) he with ⟨st', h1⟩ | h1 | h1
  · exact hn st' h1
  · have := hangMap_three (inv_steps h) h1; omega
  · have := hangSave_three (inv_steps h) h1; omega

/-- An update in which nothing goes wrong never waits forever. -/
theorem C91_clean_ends (c : Cfg) (hc : Clean c) (hw : 1 ≤ c.workers) (st : St) (n : Nat) (h : Steps c .init st n) :
    ¬ Hangs c st := by
  rintro ⟨he, hn⟩
  have hi := inv_steps h
  rcases progress hi he with ⟨st', h1⟩ | h1 | h1
  · exact hn st' h1
  · obtain ⟨j, d, hj, hd, hb⟩ := hi.mbad (Or.inl h1.1)
    obtain ⟨l, hl, hd⟩ := chunk_mem hd
    simp [hc.docs l hl d hd] at hb
  · rcases h1.1 with h1 | h1
    · obtain ⟨j, hj, hb⟩ := hi.sbad h1; simp [hc.saves j hj] at hb
    · rcases hi.spanic h1 with h0 | ⟨j, hj, hb⟩
      · omega
      · simp [hc.reads j hj] at hb

/-- A thread panics only if there are no workers, a batch cannot be read, or a batch has more documents than there are
workers and one of them cannot be mapped. -/
theorem C91_panic_only (c : Cfg) (st : St) (n : Nat) (h : Steps c .init st n) (hp : st.outcome = .panic) :
    c.workers = 0 ∨ (∃ j, j < c.chunks.length ∧ c.badRead j = true) ∨
    ∃ chunk ∈ c.chunks, c.workers < chunk.length ∧ ∃ other ∈ c.chunks, ∃ d ∈ other, c.badDoc d = true := by
  have hi := inv_steps h
  have h1 : st.g = .panicked ∨ st.s = .panicked := by
    cases hg : st.g <;> cases hm : st.m <;> cases hs : st.s <;> simp [St.outcome, hg, hm, hs] at hp ⊢
  rcases h1 with h1 | h1
  · obtain ⟨h2, h3⟩ := hi.gpanic h1
    obtain ⟨j, d, hj, hd, hb⟩ := hi.mbad (Or.inl (hi.gone_m _ h2))
    obtain ⟨l, hl, hd⟩ := chunk_mem hd
    have hlt := hi.gi_lt (by simp [h1]) (by simp [h1])
    refine Or.inr (Or.inr ⟨c.chunks[st.gi], List.getElem_mem hlt, ?_, l, hl, d, hd, hb⟩)
    simpa [Cfg.chunk, List.getElem?_eq_getElem hlt] using h3
  · rcases hi.spanic h1 with h0 | h0
    · exact Or.inl h0
    · exact Or.inr (Or.inl h0)

/-- An eager view is updated for one document at a time: if the document can be read the update ends, and either succeeds
or returns an error. -/
theorem C91_eager (c : Cfg) (d : Doc) (hc : c.chunks = [[d]]) (hw : 1 ≤ c.workers) (hr : c.badRead 0 = false) (st : St)
    (n : Nat) (h : Steps c .init st n) :
    n ≤ c.workers + 14 ∧ ¬ Hangs c st ∧
    (st.ended = true → st.outcome = if c.badDoc d || c.badSave 0 then .err else .ok) := by
  refine ⟨?_, C91_ends_partial c (by simp [hc]) st n h, ?_⟩
  · have := C91_bounded c st n h
    simp [hc] at this
    omega
  · intro he
    have hnp : st.outcome ≠ .panic := by
      intro hp
      rcases C91_panic_only c st n h hp with h1 | ⟨j, hj, h1⟩ | ⟨l, hl, h1, _⟩
      · omega
      · simp [hc] at hj; subst hj; simp [hr] at h1
      · simp [hc] at hl; subst hl; simp at h1; omega
    cases hb : (c.badDoc d || c.badSave 0) with
    | false =>
      simp only [Bool.or_eq_false_iff] at hb
      exact C91_clean c ⟨by simp [hc, hb.1], by intro j hj; simp [hc] at hj; subst hj; exact hr,
        by intro j hj; simp [hc] at hj; subst hj; exact hb.2⟩ hw st n h he
    | true =>
      have hno : st.outcome ≠ .ok := by
        intro ho
        obtain ⟨_, hcl, _⟩ := C91_ok_sound c st n h he ho hw
        have h1 := hcl.docs [d] (by simp [hc]) d (by simp)
        have h2 := hcl.saves 0 (by simp [hc])
        simp [h1, h2] at hb
      cases ho : st.outcome <;> simp_all

/-- Once there, waiting forever is final: no step of the other threads ends it. -/
theorem C91_hang_forever (c : Cfg) (st : St) (n m : Nat) (st' : St) (h0 : Steps c .init st n)
    (h : HangMap c st ∨ HangSave st) (hs : Steps c st st' m) : st'.ended = false := by
  have key : HangMap c st' ∨ HangSave st' := by
    clear h0
    induction hs with
    | refl => exact h
    | step _ h2 ih =>
      rcases ih with ⟨a1, a2, a3, a4⟩ | ⟨a1, ⟨i, a2⟩, a3⟩
      · refine Or.inl ?_
        cases h2 <;> simp_all [HangMap]
      · refine Or.inr ?_
        cases h2 <;> simp_all [HangSave]
  rcases key with ⟨a1, a2, _⟩ | ⟨_, ⟨i, a2⟩, _⟩
  · simp [St.ended, a2, GPc.ended]
  · simp [St.ended, a2, MPc.ended]

/-! ## The documents of a batch -/

theorem pairUp_spec {α : Type} (ids : List Nat) (docs : List (Nat × α)) (h1 : ids.Pairwise (· > ·))
    (h2 : docs.Pairwise fun a b => a.1 > b.1) (h3 : ∀ p ∈ docs, p.1 ∈ ids) :
    (pairUp ids docs).map (·.1) = ids ∧
    ∀ id o, (id, o) ∈ pairUp ids docs → ∀ x, o = some x ↔ (id, x) ∈ docs := by
  induction ids generalizing docs with
  | nil => exact ⟨by simp [pairUp], by simp [pairUp]⟩
  | cons a ids ih =>
    rw [List.pairwise_cons] at h1
    cases docs with
    | nil =>
      obtain ⟨e1, e2⟩ := ih [] h1.2 (by simp) (by simp)
      refine ⟨by simp [pairUp, e1], ?_⟩
      intro id o hm x
      simp only [pairUp, List.mem_cons, Prod.mk.injEq] at hm
      rcases hm with ⟨rfl, rfl⟩ | hm
      · simp
      · exact e2 id o hm x
    | cons p docs =>
      obtain ⟨key, v⟩ := p
      rw [List.pairwise_cons] at h2
      by_cases hk : key = a
      · subst hk
        have h4 : ∀ p ∈ docs, p.1 ∈ ids := by
          intro p hp
          have h5 := h2.1 p hp
          have h6 := h3 p (List.mem_cons_of_mem _ hp)
          rcases List.mem_cons.1 h6 with h7 | h7
          · simp only [h7] at h5; omega
          · exact h7
        obtain ⟨e1, e2⟩ := ih docs h1.2 h2.2 h4
        refine ⟨by simp [pairUp, e1], ?_⟩
        intro id o hm x
        simp only [pairUp, if_true, List.mem_cons, Prod.mk.injEq] at hm
        rcases hm with ⟨rfl, rfl⟩ | hm
        · constructor
          · intro h; cases h; exact List.mem_cons_self
          · intro h
            rcases List.mem_cons.1 h with h | h
            · cases h; rfl
            · have := h2.1 _ h; simp at this
        · rw [e2 id o hm x]
          constructor
          · exact List.mem_cons_of_mem _
          · intro h
            rcases List.mem_cons.1 h with h | h
            · cases h
              have : key ∈ ids := by rw [← e1]; exact List.mem_map.2 ⟨_, hm, rfl⟩
              have := h1.1 key this
              omega
            · exact h
      · have h4 : ∀ p ∈ (key, v) :: docs, p.1 ∈ ids ∧ p.1 ≤ key := by
          intro p hp
          have h8 : key ∈ ids := (List.mem_cons.1 (h3 _ List.mem_cons_self)).resolve_left hk
          have h9 := h1.1 key h8
          have h10 : p.1 ≤ key := by
            rcases List.mem_cons.1 hp with h | h
            · rw [h]; exact Nat.le_refl _
            · exact Nat.le_of_lt (h2.1 p h)
          refine ⟨(List.mem_cons.1 (h3 p hp)).resolve_left (by intro h; rw [h] at h10; omega), h10⟩
        obtain ⟨e1, e2⟩ := ih ((key, v) :: docs) h1.2 (List.pairwise_cons.2 h2) (fun p hp => (h4 p hp).1)
        refine ⟨by simp [pairUp, hk, e1], ?_⟩
        intro id o hm x
        simp only [pairUp, if_neg hk, List.mem_cons, Prod.mk.injEq] at hm
        rcases hm with ⟨rfl, rfl⟩ | hm
        · constructor
          · intro h; cases h
          · intro h
            have h5 := (h4 _ h).2
            have h8 : key ∈ ids := (List.mem_cons.1 (h3 _ List.mem_cons_self)).resolve_left hk
            have h9 := h1.1 key h8
            simp at h5; omega
        · exact e2 id o hm x

/-- Each document is given to the workers under its own id, and an id without a document is given without one: for ids in
ascending order, and the documents `get_multiple` found for some of them in the same order. -/
theorem C91_documents {α : Type} (chunk : List Doc) (found : List (Doc × α)) (h1 : chunk.Pairwise (· < ·))
    (h2 : found.Pairwise fun a b => a.1 < b.1) (h3 : ∀ p ∈ found, p.1 ∈ chunk) :
    (sentDocs chunk found).map (·.1) = chunk.reverse ∧
    ∀ id o, (id, o) ∈ sentDocs chunk found → ∀ x, o = some x ↔ (id, x) ∈ found := by
  obtain ⟨e1, e2⟩ := pairUp_spec chunk.reverse found.reverse (List.pairwise_reverse.2 h1) (List.pairwise_reverse.2 h2)
    (by simpa using h3)
  exact ⟨e1, fun id o hm x => by simpa using e2 id o hm x⟩

theorem chunksOf_spec (k : Nat) (hk : k ≠ 0) (ids : List Doc) :
    (chunksOf k ids).flatten = ids ∧ ∀ ch ∈ chunksOf k ids, ch ≠ [] ∧ ch.length ≤ k := by
  generalize hn : ids.length = n
  induction n using Nat.strongRecOn generalizing ids with
  | _ n ih =>
    unfold chunksOf
    by_cases h : ids = []
    · simp [h]
    · rw [dif_neg (by simp [h, hk])]
      have hl : ids.length ≠ 0 := by simpa using h
      obtain ⟨e1, e2⟩ := ih (ids.drop k).length (by rw [List.length_drop]; omega) _ rfl
      refine ⟨by simp [e1], ?_⟩
      intro ch hc
      rcases List.mem_cons.1 hc with rfl | hc
      · refine ⟨by simp [h, hk], ?_⟩
        rw [List.length_take]; exact Nat.min_le_left _ _
      · exact e2 ch hc

theorem rounds_spec (k : Nat) (hk : k ≠ 0) (ids : List Doc) :
    (rounds k ids).reverse.flatten = ids ∧ ∀ r ∈ rounds k ids, r ≠ [] ∧ r.length ≤ k := by
  generalize hn : ids.length = n
  induction n using Nat.strongRecOn generalizing ids with
  | _ n ih =>
    unfold rounds
    by_cases h : ids = []
    · simp [h]
    · rw [dif_neg (by simp [h, hk])]
      have hl : ids.length ≠ 0 := by simpa using h
      obtain ⟨e1, e2⟩ := ih (ids.take (ids.length - k)).length (by rw [List.length_take]; omega) _ rfl
      refine ⟨by simp [List.flatten_append, e1, List.take_append_drop], ?_⟩
      intro ch hc
      rcases List.mem_cons.1 hc with rfl | hc
      · have : (ids.drop (ids.length - k)).length ≠ 0 := by rw [List.length_drop]; omega
        exact ⟨fun h0 => this (by rw [h0]; rfl), by rw [List.length_drop]; omega⟩
      · exact e2 ch hc

/-- Every invalidated document is in exactly one batch of one transaction, and the ids of a batch are in ascending order
if those of the invalidated documents are (they are the keys of a tree). -/
theorem C91_all_divided (k b : Nat) (hk : k ≠ 0) (hb : b ≠ 0) (ids : List Doc) :
    (((rounds k ids).reverse.map (chunksOf b)).flatten).flatten = ids ∧
    (∀ r ∈ rounds k ids, r.length ≤ k ∧ ∀ ch ∈ chunksOf b r, ch ≠ [] ∧ ch.length ≤ b) ∧
    (ids.Pairwise (· < ·) → ∀ r ∈ rounds k ids, ∀ ch ∈ chunksOf b r, ch.Pairwise (· < ·)) := by
  obtain ⟨e1, e2⟩ := rounds_spec k hk ids
  have e3 : ∀ l : List (List Doc), ((l.map (chunksOf b)).flatten).flatten = l.flatten := by
    intro l
    induction l with
    | nil => rfl
    | cons a l ih => simp [List.flatten_append, ih, (chunksOf_spec b hb a).1]
  have sub : ∀ (ll : List (List Doc)) (l : List Doc), l ∈ ll → ll.flatten.Pairwise (· < ·) → l.Pairwise (· < ·) := by
    intro ll l hl hp
    exact (List.pairwise_flatten.1 hp).1 l hl
  refine ⟨by rw [e3, e1], fun r hr => ⟨(e2 r hr).2, (chunksOf_spec b hb r).2⟩, ?_⟩
  intro hp r hr ch hc
  have h1 := sub (rounds k ids).reverse r (by simpa using hr) (by rw [e1]; exact hp)
  exact sub (chunksOf b r) ch hc (by rw [(chunksOf_spec b hb r).1]; exact h1)

example : sentDocs [1, 2, 4, 7] [(2, "b"), (7, "d")] = [(7, some "d"), (4, none), (2, some "b"), (1, none)] := by decide

/-! ## What goes wrong -/

theorem Steps.trans {c : Cfg} {a b d : St} {n m : Nat} (h : Steps c a b n) (h2 : Steps c b d m) : Steps c a d (n + m) := by
  induction h2 with
  | refl => exact h
  | step _ h3 ih => exact .step ih h3

theorem hangMap_stuck {c : Cfg} {st : St} (h : HangMap c st) (hs : st.s ≠ .run) (st' : St) : ¬ Step c st st' := by
  obtain ⟨a1, a2, a3, a4⟩ := h
  intro h2
  cases h2 <;> simp_all <;> omega

theorem hangSave_stuck {c : Cfg} {st : St} (h : HangSave st) (hg : st.g.ended = true) (st' : St) : ¬ Step c st st' := by
  obtain ⟨a1, ⟨i, a2⟩, a3⟩ := h
  intro h2
  cases h2 <;> simp_all [GPc.ended]

/-- Three batches of one document; the first document cannot be mapped. -/
def cfgMap : Cfg := ⟨[[1], [2], [3]], 1, fun d => d == 1, fun _ => false, fun _ => false⟩

/-- **Violation.**  If the map function fails (here for the first document) while there are at least three batches, the
update waits forever: nobody receives the batches any more, but the receiver is not dropped, so `generate_batches` waits
for room in the channel.  Those who wait for the view are never answered. -/
theorem C91_violated_hang_map : ∃ st n, Steps cfgMap .init st n ∧ HangMap cfgMap st ∧ Hangs cfgMap st := by
  have e0 : Steps cfgMap .init .init 0 := .refl
  have e1 := Steps.step e0 (.gSend rfl (by decide) rfl)
  have e2 := Steps.step e1 (.gRead rfl rfl)
  have e3 := Steps.step e2 (.gDoc (d := 1) (rest := []) rfl rfl)
  have e4 := Steps.step e3 (.gNext rfl)
  have e5 := Steps.step e4 (.mTake (i := 0) rfl rfl)
  have e6 := Steps.step e5 (.wBad (i := 0) (a := 0) (f := false) (d := 1) (rest := []) rfl rfl rfl)
  have e7 := Steps.step e6 (.mFail (i := 0) rfl)
  have e8 := Steps.step e7 (.sEnd rfl rfl rfl)
  have e9 := Steps.step e8 (.gSend rfl (by decide) rfl)
  have e10 := Steps.step e9 (.gRead rfl rfl)
  have e11 := Steps.step e10 (.gDoc (d := 2) (rest := []) rfl rfl)
  have e12 := Steps.step e11 (.gNext rfl)
  exact ⟨_, _, e12, ⟨rfl, rfl, by decide, List.cons_ne_nil _ _⟩, rfl,
    hangMap_stuck ⟨rfl, rfl, by decide, List.cons_ne_nil _ _⟩ SPc.noConfusion⟩

/-- Three batches; the first cannot be saved. -/
def cfgSave : Cfg := ⟨[[1], [2], [3]], 1, fun _ => false, fun _ => false, fun j => j == 0⟩

/-- **Violation.**  The same if a batch cannot be saved: a reduce function that fails, a unique key that is violated. -/
theorem C91_violated_hang_save : ∃ st n, Steps cfgSave .init st n ∧ HangSave st ∧ st.s = .failed ∧ Hangs cfgSave st := by
  have e0 : Steps cfgSave .init .init 0 := .refl
  have e1 := Steps.step e0 (.gSend rfl (by decide) rfl)
  have e2 := Steps.step e1 (.gRead rfl rfl)
  have e3 := Steps.step e2 (.gDoc (d := 1) (rest := []) rfl rfl)
  have e4 := Steps.step e3 (.gNext rfl)
  have e5 := Steps.step e4 (.mTake (i := 0) rfl rfl)
  have e6 := Steps.step e5 (.wOk (i := 0) (a := 0) (f := false) (d := 1) (rest := []) rfl rfl rfl)
  have e7 := Steps.step e6 (.wEnd (i := 0) (a := 0) (f := false) rfl rfl rfl)
  have e8 := Steps.step e7 (.mMapped (i := 0) rfl)
  have e9 := Steps.step e8 (.mSend (i := 0) rfl rfl)
  have e10 := Steps.step e9 (.sBad (i := 0) rfl rfl (by intro d hd; simpa [cfgSave, Cfg.chunk, upd, St.init] using hd) rfl)
  have e11 := Steps.step e10 (.gSend rfl (by decide) rfl)
  have e12 := Steps.step e11 (.gRead rfl rfl)
  have e13 := Steps.step e12 (.gDoc (d := 2) (rest := []) rfl rfl)
  have e14 := Steps.step e13 (.gNext rfl)
  have e15 := Steps.step e14 (.mTake (i := 1) rfl rfl)
  have e16 := Steps.step e15 (.wOk (i := 1) (a := 0) (f := false) (d := 2) (rest := []) rfl rfl rfl)
  have e17 := Steps.step e16 (.wEnd (i := 1) (a := 0) (f := false) rfl rfl rfl)
  have e18 := Steps.step e17 (.mMapped (i := 1) rfl)
  have e19 := Steps.step e18 (.mSend (i := 1) rfl rfl)
  have e20 := Steps.step e19 (.gSend rfl (by decide) rfl)
  have e21 := Steps.step e20 (.gRead rfl rfl)
  have e22 := Steps.step e21 (.gDoc (d := 3) (rest := []) rfl rfl)
  have e23 := Steps.step e22 (.gNext rfl)
  have e24 := Steps.step e23 (.mTake (i := 2) rfl rfl)
  have e25 := Steps.step e24 (.wOk (i := 2) (a := 0) (f := false) (d := 3) (rest := []) rfl rfl rfl)
  have e26 := Steps.step e25 (.wEnd (i := 2) (a := 0) (f := false) rfl rfl rfl)
  have e27 := Steps.step e26 (.mMapped (i := 2) rfl)
  have e28 := Steps.step e27 (.gEnd rfl rfl)
  exact ⟨_, _, e28, ⟨Or.inl rfl, ⟨2, rfl⟩, List.cons_ne_nil _ _⟩, rfl, rfl,
    hangSave_stuck ⟨Or.inl rfl, ⟨2, rfl⟩, List.cons_ne_nil _ _⟩ rfl⟩

/-- One batch of two documents; the one sent first cannot be mapped. -/
def cfgPanic : Cfg := ⟨[[1, 2]], 1, fun d => d == 2, fun _ => false, fun _ => false⟩

/-- **Violation.**  If the map function fails while the documents of the batch are still being sent, `send().unwrap()`
panics instead of the error being returned. -/
theorem C91_violated_panic_send : ∃ st n, Steps cfgPanic .init st n ∧ st.ended = true ∧ st.outcome = .panic := by
  have e0 : Steps cfgPanic .init .init 0 := .refl
  have e1 := Steps.step e0 (.gSend rfl (by decide) rfl)
  have e2 := Steps.step e1 (.gRead rfl rfl)
  have e3 := Steps.step e2 (.gDoc (d := 2) (rest := [1]) rfl rfl)
  have e5 := Steps.step e3 (.mTake (i := 0) rfl rfl)
  have e6 := Steps.step e5 (.wBad (i := 0) (a := 0) (f := false) (d := 2) (rest := []) rfl rfl rfl)
  have e7 := Steps.step e6 (.mFail (i := 0) rfl)
  have e8 := Steps.step e7 (.gPanic (d := 1) (rest := []) rfl rfl)
  have e9 := Steps.step e8 (.sEnd rfl rfl rfl)
  exact ⟨_, _, e9, rfl, rfl⟩

/-- One batch that cannot be read. -/
def cfgRead : Cfg := ⟨[[1]], 4, fun _ => false, fun _ => true, fun _ => false⟩

/-- **Violation.**  If the documents cannot be read, the batch that was already sent is mapped without them, and
`document_maps.get(key).unwrap()` panics instead of the error being returned: in every execution. -/
theorem C91_violated_panic_read (st : St) (n : Nat) (h : Steps cfgRead .init st n) (he : st.ended = true) :
    st.outcome = .panic := by
  have hi := inv_steps h
  have key : st.saved = [] ∧ st.buf 0 = [] ∧ st.got 0 = [] ∧ st.s ≠ .failed ∧ (∀ r, st.g ≠ .docs r) ∧
      (∀ i a f, st.m = .work i a f → f = false) ∧ st.m ≠ .failed ∧ st.gi = 0 ∧ st.g ≠ .done ∧ st.g ≠ .panicked := by
    clear he hi
    induction h with
    | refl => simp [St.init]
    | @step b d n h1 h2 ih =>
      have hi := inv_steps h1
      have hq := hi.q_lt
      have hc : cfgRead.chunk 0 = [1] := rfl
      have hb : ∀ j, cfgRead.badRead j = true := fun _ => rfl
      have hn : cfgRead.chunks.length = 1 := rfl
      have hw := hi.work_lt
      have hnc : ∀ i, b.mq = [i] → ¬ cfgRead.complete b i := by
        intro i hm hcm
        have : i < 1 := hq i (by rw [hm]; exact List.mem_append_right _ List.mem_cons_self)
        have : i = 0 := by omega
        subst this
        have := hcm 1 (by rw [hc]; exact List.mem_cons_self)
        rw [ih.2.2.1] at this
        cases this
      clear hi h1
      cases h2 <;> grind [upd]
  obtain ⟨k1, k2, k3, k4, k5, k6, k7, k8, k9, k10⟩ := key
  have hg : st.g = .failed := by
    cases hg : st.g <;> simp_all [St.ended, GPc.ended]
  have hm : st.m = .done := by
    cases hm : st.m <;> simp_all [St.ended, MPc.ended]
  obtain ⟨x, y, ho, hx, hy, _⟩ := hi.order
  have hq := (hi.mdone hm).1
  have hy' : y = [] := by simpa [Hand, hm] using hy
  have h1 := congrArg List.length ho
  simp [k1, hq, hy', St.sent, hg, k8] at h1
  cases hs : st.s with
  | run => simp [St.ended, hs, SPc.ended] at he
  | failed => exact absurd hs k4
  | panicked => simp [St.outcome, hg, hs]
  | done =>
    have hx' : x = [] := by simpa [SHand, hs] using hx
    simp [hx', (hi.sdone hs).1] at h1

/-- Nobody to map the documents: `tasks_parallelization(0)`. -/
def cfgZero : Cfg := ⟨[[1]], 0, fun _ => false, fun _ => false, fun _ => false⟩

/-- **Violation.**  Without workers every batch is mapped without its documents: the update panics although nothing goes
wrong. -/
theorem C91_violated_zero_workers : ∃ st n, Clean cfgZero ∧ Steps cfgZero .init st n ∧ st.ended = true ∧
    st.outcome = .panic := by
  have e0 : Steps cfgZero .init .init 0 := .refl
  have e1 := Steps.step e0 (.gSend rfl (by decide) rfl)
  have e2 := Steps.step e1 (.gRead rfl rfl)
  have e3 := Steps.step e2 (.gDoc (d := 1) (rest := []) rfl rfl)
  have e4 := Steps.step e3 (.gNext rfl)
  have e5 := Steps.step e4 (.gEnd rfl rfl)
  have e6 := Steps.step e5 (.mTake (i := 0) rfl rfl)
  have e7 := Steps.step e6 (.mMapped (i := 0) rfl)
  have e8 := Steps.step e7 (.mSend (i := 0) rfl rfl)
  have e9 := Steps.step e8 (.sPanic (i := 0) rfl rfl (by intro h; simpa [St.init] using h 1 (by simp [cfgZero, Cfg.chunk])))
  have e10 := Steps.step e9 (.mEnd rfl rfl rfl)
  exact ⟨_, _, ⟨by simp [cfgZero], by simp [cfgZero], by simp [cfgZero]⟩, e10, rfl, rfl⟩

/-- An update of two documents by two workers that succeeds. -/
def cfgGood : Cfg := ⟨[[1], [2]], 2, fun _ => false, fun _ => false, fun _ => false⟩

example : ∃ st n, Steps cfgGood .init st n ∧ st.ended = true ∧ st.outcome = .ok ∧ st.saved = [0, 1] := by
  have e0 : Steps cfgGood .init .init 0 := .refl
  have e1 := Steps.step e0 (.gSend rfl (by decide) rfl)
  have e2 := Steps.step e1 (.mTake (i := 0) rfl rfl)
  have e3 := Steps.step e2 (.gRead rfl rfl)
  have e4 := Steps.step e3 (.gDoc (d := 1) (rest := []) rfl rfl)
  have e5 := Steps.step e4 (.wOk (i := 0) (a := 1) (f := false) (d := 1) (rest := []) rfl rfl rfl)
  have e6 := Steps.step e5 (.gNext rfl)
  have e7 := Steps.step e6 (.wEnd (i := 0) (a := 1) (f := false) rfl rfl rfl)
  have e8 := Steps.step e7 (.gSend rfl (by decide) rfl)
  have e9 := Steps.step e8 (.wEnd (i := 0) (a := 0) (f := false) rfl rfl rfl)
  have e10 := Steps.step e9 (.mMapped (i := 0) rfl)
  have e11 := Steps.step e10 (.mSend (i := 0) rfl rfl)
  have e12 := Steps.step e11 (.sOk (i := 0) rfl rfl (by intro d hd; simpa [cfgGood, Cfg.chunk, upd, St.init] using hd) rfl)
  have e13 := Steps.step e12 (.gRead rfl rfl)
  have e14 := Steps.step e13 (.gDoc (d := 2) (rest := []) rfl rfl)
  have e15 := Steps.step e14 (.gNext rfl)
  have e16 := Steps.step e15 (.gEnd rfl rfl)
  have e17 := Steps.step e16 (.mTake (i := 1) rfl rfl)
  have e18 := Steps.step e17 (.wOk (i := 1) (a := 1) (f := false) (d := 2) (rest := []) rfl rfl rfl)
  have e19 := Steps.step e18 (.wEnd (i := 1) (a := 1) (f := false) rfl rfl rfl)
  have e20 := Steps.step e19 (.wEnd (i := 1) (a := 0) (f := false) rfl rfl rfl)
  have e21 := Steps.step e20 (.mMapped (i := 1) rfl)
  have e22 := Steps.step e21 (.mSend (i := 1) rfl rfl)
  have e23 := Steps.step e22 (.sOk (i := 1) rfl rfl (by intro d hd; simpa [cfgGood, Cfg.chunk, upd, St.init] using hd) rfl)
  have e24 := Steps.step e23 (.mEnd rfl rfl rfl)
  have e25 := Steps.step e24 (.sEnd rfl rfl rfl)
  exact ⟨_, _, e25, rfl, rfl, rfl⟩

end Bonsai.Pipe
