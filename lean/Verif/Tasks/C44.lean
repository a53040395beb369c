import Verif.Tasks.Jobs

/-!
# C44: a keyed job runs at most once at a time and answers everyone

All theorems are about every sequence of fewer than 2^64 events (job ids are `u64` and wrap).
-/
set_option linter.unusedSimpArgs false
set_option linter.unusedSectionVars false

namespace Bonsai.Jobs

variable {K R : Type} [DecidableEq K]

/-- **C44**, first part: two jobs with the same key are never queued or running together. -/
theorem C44_one_job_per_key (evs : List (Event K R)) (st : St K R) (h : Run St.new evs st)
    (hlen : evs.length < 2 ^ 64) (k : K) :
    (st.active.filter fun t => t.key = some k).length ≤ 1 := by
  have hi := inv_run h hlen
  have hnd : (st.active.filter fun t => t.key = some k).Nodup :=
    List.Nodup.sublist List.filter_sublist
      ((List.pairwise_map.1 hi.ids).imp fun hne heq => hne (congrArg _ heq))
  match hl : st.active.filter fun t => t.key = some k with
  | [] => rw [hl]; simp
  | [_] => rw [hl]; simp
  | a :: b :: l =>
    exfalso
    rw [hl] at hnd
    have ha : a ∈ st.active.filter fun t => t.key = some k := by rw [hl]; simp
    have hb : b ∈ st.active.filter fun t => t.key = some k := by rw [hl]; simp
    simp only [List.mem_filter, decide_eq_true_eq] at ha hb
    have h1 := hi.keyed a ha.1 k ha.2
    have h2 := hi.keyed b hb.1 k hb.2
    have hid : a.id = b.id := by rw [h1] at h2; exact Option.some.inj h2
    have : a = b := by
      obtain ⟨ai, ak⟩ := a
      obtain ⟨bi, bk⟩ := b
      simp only at ha hb hid
      rw [hid, ha.2, hb.2]
    subst this
    simp at hnd

/-- **C44**: a lookup returns a handle of a job with the requested key that is queued or running (or
of one that panicked); if such a job was there already, no job is added. -/
theorem C44_lookup_joins_or_starts (evs : List (Event K R)) (st st' : St K R) (h : Run St.new evs st)
    (hlen : evs.length + 1 < 2 ^ 64) (k : K) (id ch : Nat) (hs : Step st (.lookup k id ch) st') :
    ((∃ t ∈ st'.active, t.id = id ∧ t.key = some k) ∨ Panicked evs id) ∧
      ((∃ t ∈ st.active, t.key = some k) → st'.active = st.active ∧ ∃ t ∈ st.active, t.id = id ∧ t.key = some k) ∧
      ((∀ t ∈ st.active, t.key ≠ some k) →
        (∃ i c, Event.lookup k i c ∈ evs ∧ Panicked evs i) ∨
          ∃ t, t.id = id ∧ t.key = some k ∧ st'.queue = st.queue ++ [t] ∧ st'.running = st.running) := by
  have hi := inv_run h (by omega)
  have hmod : (st.lastId + 1) % 2 ^ 64 = st.lastId + 1 := by
    have := hi.small
    exact Nat.mod_eq_of_lt (by omega)
  generalize he : (Event.lookup k id ch : Event K R) = e at hs
  cases hs with
  | lookup k' =>
    simp only [Event.lookup.injEq] at he
    obtain ⟨rfl, rfl, rfl⟩ := he
    cases hk : st.keyed k with
    | some id =>
      have e1 : st.lookup k = ((st.newHandle id).1, id, st.channels) := by
        simp only [St.lookup, hk]; rfl
      rw [e1]
      obtain ⟨ha, c, hl⟩ := hi.keyedActive k id hk
      refine ⟨ha.imp_left fun x => ⟨_, x, rfl, rfl⟩, ?_, ?_⟩
      · rintro ⟨t, ht, htk⟩
        have := hi.keyed t ht k htk
        rw [hk] at this
        exact ⟨rfl, t, ht, (Option.some.inj this).symm, htk⟩
      · intro hno
        rcases ha with ha | ha
        · exact absurd rfl (hno _ ha)
        · exact .inl ⟨id, c, hl, ha⟩
    | none =>
      have e1 : st.lookup k = ({ (st.enqueue (some k)).1 with
          keyed := put st.keyed k (some (st.lastId + 1)) }, st.lastId + 1, st.channels) := by
        simp only [St.lookup, hk, St.enqueue, hmod, St.newHandle]
      rw [e1]
      have hq : (st.enqueue (some k)).1.queue = st.queue ++ [⟨st.lastId + 1, some k⟩] := by
        simp only [St.enqueue, hmod, St.newHandle]
      refine ⟨.inl ⟨⟨st.lastId + 1, some k⟩, ?_, rfl, rfl⟩, ?_, ?_⟩
      · simp only [St.active, hq]; simp
      · rintro ⟨t, ht, htk⟩
        have := hi.keyed t ht k htk
        rw [hk] at this; cases this
      · intro _
        exact .inr ⟨⟨st.lastId + 1, some k⟩, rfl, rfl, hq, rfl⟩
  | enqueue => cases he
  | start => cases he
  | complete => cases he
  | panic => cases he

/-- **C44**: what a handle has received is exactly the result of the job it was given out for — nothing
before the job ends, the result once after it. -/
theorem C44_handle_receives_its_jobs_result (evs : List (Event K R)) (st : St K R)
    (h : Run St.new evs st) (hlen : evs.length < 2 ^ 64) (id ch : Nat) (hj : Joined evs id ch) :
    st.inbox ch = results evs id ∧ (st.inbox ch).length ≤ 1 := by
  rcases (inv_run h hlen).waiting id ch hj with ⟨_, _, a, b⟩ | ⟨r, a, b, _⟩
  · rw [a, b]; simp
  · rw [a, b]; simp

/-- A handle that was just given out is still waiting: it only receives a result produced after it
joined. -/
theorem C44_fresh_handle_waits (evs : List (Event K R)) (st st' : St K R) (h : Run St.new evs st)
    (hlen : evs.length + 1 < 2 ^ 64) (e : Event K R) (id ch : Nat) (hs : Step st e st')
    (he : Joined [e] id ch) : st'.inbox ch = [] := by
  have hi := inv_step (inv_run h (by omega)) hlen hs
  have hj : Joined (evs ++ [e]) id ch := by
    rcases he with ⟨k, he⟩ | he
    · exact .inl ⟨k, by simp at he; simp [he]⟩
    · exact .inr (by simp at he; simp [he])
  rcases hi.waiting id ch hj with ⟨_, _, _, b⟩ | ⟨r, a, b, _, f, g⟩
  · exact b
  · exfalso
    have hnr : results [e] id = [] := by
      rcases he with ⟨k, he⟩ | he <;> simp at he <;> subst he <;> simp [results]
    have hold := inv_run h (by omega)
    rw [results_append, hnr, List.append_nil] at a
    -- the channel is new, so it is not the one of an older handle
    cases hs with
    | lookup k =>
      have hid : (st.lookup k).2.1 = id := by
        rcases he with ⟨k', he⟩ | he
        · simp at he; exact he.2.1.symm
        · simp at he
      cases hk : st.keyed k with
      | some i =>
        have e1 : (st.lookup k).2.1 = i := by simp only [St.lookup, hk]
        have hi' : i = id := e1.symm.trans hid
        subst hi'
        obtain ⟨ha, c, hl⟩ := hold.keyedActive k i hk
        rcases hold.waiting i c (.inl ⟨k, hl⟩) with ⟨_, _, x, _⟩ | ⟨_, _, _, _, f', g'⟩
        · rw [x] at a; cases a
        · rcases ha with ha | ha
          · exact f' _ ha rfl
          · exact g' ha
      | none =>
        have hmod : (st.lastId + 1) % 2 ^ 64 = st.lastId + 1 := by
          have := hold.small
          exact Nat.mod_eq_of_lt (by omega)
        have e1 : (st.lookup k).2.1 = st.lastId + 1 := by
          simp only [St.lookup, hk, St.enqueue, hmod]
        have hi' : st.lastId + 1 = id := e1.symm.trans hid
        subst hi'
        rw [(hold.unborn _ (by omega)).1] at a; cases a
    | enqueue =>
      have hmod : (st.lastId + 1) % 2 ^ 64 = st.lastId + 1 := by
        have := hold.small
        exact Nat.mod_eq_of_lt (by omega)
      have hid : (st.enqueue none).2.1 = id := by
        rcases he with ⟨k', he⟩ | he
        · simp at he
        · simp at he; exact he.1.symm
      have e1 : (st.enqueue (none : Option K)).2.1 = st.lastId + 1 := by
        simp only [St.enqueue, hmod]
      have hi' : st.lastId + 1 = id := e1.symm.trans hid
      subst hi'
      rw [(hold.unborn _ (by omega)).1] at a; cases a
    | start => rcases he with ⟨k', he⟩ | he <;> simp at he
    | complete => rcases he with ⟨k', he⟩ | he <;> simp at he
    | panic => rcases he with ⟨k', he⟩ | he <;> simp at he

/-- **C44** (partial): once a job is neither queued nor running, every handle for it has its result —
unless the job panicked.  (Missing: jobs that panic, see `C44_violated_panic_blocks_key`.) -/
theorem C44_everyone_is_answered_partial (evs : List (Event K R)) (st : St K R)
    (h : Run St.new evs st) (hlen : evs.length < 2 ^ 64) (id ch : Nat) (hj : Joined evs id ch)
    (hdone : ∀ t ∈ st.active, t.id ≠ id) (hp : ¬ Panicked evs id) :
    ∃ r, st.inbox ch = [r] ∧ results evs id = [r] := by
  rcases (inv_run h hlen).waiting id ch hj with ⟨_, a, _, _⟩ | ⟨r, a, b, _⟩
  · rcases a with ⟨t, ht, hi⟩ | a
    · exact absurd hi (hdone t ht)
    · exact absurd a hp
  · exact ⟨r, b, a⟩

/-- Jobs can always make progress: a queued job can be started and a running job can end, whatever
the state. -/
theorem C44_no_step_blocks (st : St K R) (r : R) :
    (∀ t q, st.queue = t :: q → ∃ st', Step st (.start t.id) st') ∧
      (∀ t ∈ st.running, ∃ st', Step st (.complete t.id r) st') := by
  refine ⟨fun t q hq => ⟨_, .start st t q hq⟩, fun t ht => ?_⟩
  obtain ⟨pre, post, hr⟩ := List.append_of_mem ht
  exact ⟨_, .complete st t r pre post hr⟩

/-- Events after a starting point. -/
theorem Run.append {a b c : St K R} {es fs : List (Event K R)} (h : Run a es b) (g : Run b fs c) :
    Run a (es ++ fs) c := by
  induction g with
  | nil => simpa using h
  | snoc g s ih => rw [← List.append_assoc]; exact .snoc ih s

/-- **C44 is violated** by a job that panics: the handles of the job never receive anything, and
neither does any handle obtained later for the same key, whatever happens afterwards. -/
theorem C44_violated_panic_blocks_key (evs : List (Event K R)) (st st' st'' : St K R)
    (h : Run St.new evs st) (t : Task K) (k : K) (ht : t ∈ st.running) (hk : t.key = some k)
    (hs : Step st (.panic t.id) st') (later : List (Event K R)) (hl : Run st' later st'')
    (hlen : evs.length + 1 + later.length < 2 ^ 64) :
    (∀ ch, Joined evs t.id ch → st''.inbox ch = []) ∧
      ∀ id ch, Event.lookup k id ch ∈ later → id = t.id ∧ st''.inbox ch = [] := by
  have hi := inv_run h (by omega)
  have hi' := inv_step hi (by omega) hs
  have hkey : st'.keyed k = some t.id := by
    have := hi.keyed t (by simp [St.active, ht]) k hk
    generalize he : (Event.panic t.id : Event K R) = e at hs
    cases hs with
    | panic t' pre post hr => exact this
    | _ => cases he
  have main : ∀ (later : List (Event K R)) (st'' : St K R), Run st' later st'' →
      evs.length + 1 + later.length < 2 ^ 64 →
      Inv (evs ++ [.panic t.id] ++ later) st'' ∧ st''.keyed k = some t.id ∧
        ∀ id ch, Event.lookup k id ch ∈ later → id = t.id := by
    clear hl hlen
    intro later st'' hl hlen
    clear hs
    induction hl with
    | nil => exact ⟨by simpa using hi', hkey, by simp⟩
    | snoc hl s ih =>
      rename_i s0 s1 es e
      simp only [List.length_append, List.length_cons, List.length_nil] at hlen
      obtain ⟨a, b, c⟩ := ih (by omega)
      have hpan : Panicked (evs ++ [.panic t.id] ++ es) t.id := by simp [Panicked]
      refine ⟨?_, ?_, ?_⟩
      · rw [← List.append_assoc]
        exact inv_step a (by simp; omega) s
      · cases s with
        | lookup k' =>
          simp only [St.lookup]
          cases hk' : s0.keyed k' with
          | some i => exact b
          | none =>
            have hne : k ≠ k' := by rintro rfl; rw [b] at hk'; cases hk'
            show put _ k' _ k = some t.id
            rw [put_ne _ _ hne]
            exact b
        | enqueue => exact b
        | start => exact b
        | panic => exact b
        | complete t' r pre post hr =>
          have hne : t'.key ≠ some k := by
            intro hk'
            have hact : t' ∈ s0.active := by simp [St.active, hr]
            have := a.keyed t' hact k hk'
            rw [b] at this
            exact (a.panickedBound _ hpan).2 t' hact (Option.some.inj this).symm
          show (({ s0 with running := pre ++ post } : St K R).completed t' r).keyed k = some t.id
          cases hk' : t'.key with
          | some k' =>
            have hkk : k ≠ k' := by rintro rfl; exact hne hk'
            have : (({ s0 with running := pre ++ post } : St K R).completed t' r).keyed
                = put s0.keyed k' none := by
              simp only [St.completed, hk']
              cases s0.senders t'.id <;> rfl
            rw [this, put_ne _ _ hkk]
            exact b
          | none =>
            have : (({ s0 with running := pre ++ post } : St K R).completed t' r).keyed
                = s0.keyed := by
              simp only [St.completed, hk']
              cases s0.senders t'.id <;> rfl
            rw [this]
            exact b
      · intro id ch hm
        simp only [List.mem_append, List.mem_singleton] at hm
        rcases hm with hm | hm
        · exact c id ch hm
        · cases s with
          | lookup k' =>
            simp only [Event.lookup.injEq] at hm
            obtain ⟨rfl, rfl, _⟩ := hm
            simp only [St.lookup, b]
          | _ => cases hm
  obtain ⟨a, _, c⟩ := main later st'' hl hlen
  have hpan : Panicked (evs ++ [.panic t.id] ++ later) t.id := by simp [Panicked]
  have hempty : ∀ ch, Joined (evs ++ [.panic t.id] ++ later) t.id ch → st''.inbox ch = [] := by
    intro ch hj
    rcases a.waiting t.id ch hj with ⟨_, _, _, b⟩ | ⟨_, _, _, _, _, g⟩
    · exact b
    · exact absurd hpan g
  refine ⟨fun ch hj => hempty ch ?_, fun id ch hm => ?_⟩
  · rcases hj with ⟨k', hj⟩ | hj
    · exact .inl ⟨k', by simp [hj]⟩
    · exact .inr (by simp [hj])
  · have hid := c id ch hm
    subst hid
    exact ⟨rfl, hempty ch (.inl ⟨k, by simp [hm]⟩)⟩

/-! A concrete run: three lookups of one key join one job; it runs and answers all three. A second
run: the job panics. -/
section Example

def exRun : List (Event Nat Nat) :=
  [.lookup 7 1 0, .lookup 7 1 1, .start 1, .lookup 7 1 2, .lookup 8 2 3, .complete 1 42, .lookup 7 3 4]

example : ∃ st : St Nat Nat, Run St.new exRun st ∧ st.inbox 0 = [42] ∧ st.inbox 1 = [42] ∧
    st.inbox 2 = [42] ∧ st.inbox 3 = [] ∧ st.inbox 4 = [] := by
  have h0 := Run.nil (St.new : St Nat Nat)
  have h1 := Run.snoc h0 (Step.lookup (R := Nat) _ 7)
  have h2 := Run.snoc h1 (Step.lookup _ 7)
  have h3 := Run.snoc h2 (Step.start _ ⟨1, some 7⟩ [] rfl)
  have h4 := Run.snoc h3 (Step.lookup _ 7)
  have h5 := Run.snoc h4 (Step.lookup _ 8)
  have h6 := Run.snoc h5 (Step.complete _ ⟨1, some 7⟩ 42 [] [] rfl)
  have h7 := Run.snoc h6 (Step.lookup _ 7)
  exact ⟨_, h7, rfl, rfl, rfl, rfl, rfl⟩

/-- The hypotheses of the violation are met: a job is looked up, started and panics; a later lookup of
its key joins the dead job. -/
example : ∃ (evs later : List (Event Nat Nat)) (st st' st'' : St Nat Nat) (t : Task Nat),
    Run St.new evs st ∧ t ∈ st.running ∧ t.key = some 7 ∧ Step st (.panic t.id) st' ∧
      Run st' later st'' ∧ later = [.lookup 7 1 1] ∧ evs.length = 2 := by
  have h0 := Run.nil (St.new : St Nat Nat)
  have h1 := Run.snoc h0 (Step.lookup (R := Nat) _ 7)
  have h2 := Run.snoc h1 (Step.start _ ⟨1, some 7⟩ [] rfl)
  refine ⟨_, _, _, _, _, ⟨1, some 7⟩, h2, ?_, rfl, Step.panic _ ⟨1, some 7⟩ [] [] rfl,
    Run.snoc (Run.nil _) (Step.lookup _ 7), rfl, rfl⟩
  simp
end Example

end Bonsai.Jobs
