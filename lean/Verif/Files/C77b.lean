import Verif.Files.C77

/-!
# C77: a buffered writer appends exactly the bytes it accepted, in order (the asynchronous writer)
-/
set_option linter.unusedSimpArgs false
set_option linter.unusedSectionVars false

namespace Bonsai.Files
open Bonsai Bonsai.Names Bonsai.Store Bonsai.Query

variable {s : Schema} {cfg : Cfg} {fid : Nat} {K : Sched → Prop}

/-- The bytes of a flush that are not in the file. -/
def futHeld : Option Fut → Bytes
  | some (.running b) => b
  | some (.applied b (.error _)) => b
  | _ => []

/-- The bytes a writer holds. -/
def ABuffered.held (w : ABuffered) : Bytes := futHeld w.fut ++ w.buf

/-- While a flush is under way nothing new is buffered; without capacity there is nothing. -/
structure ABuffered.Quiet (w : ABuffered) : Prop where
  quiet : ∀ f, w.fut = some f → f ≠ .finished → w.buf = []
  fits : w.buf.length ≤ w.cap
  empty : w.cap = 0 → w.held = []

/-- The effect of a poll: perhaps everything held was appended; then `tk` was accepted, or, after an error,
everything held is gone. -/
def Eff (s : Schema) (cfg : Cfg) (fid : Nat) (db : Db) (w : ABuffered) (db' : Db) (w' : ABuffered) (tk : Bytes)
    (failed : Bool) : Prop :=
  w'.Quiet ∧ ∃ h1, ((db' = db ∧ h1 = w.held) ∨ (∃ now tid, append s cfg w.held fid now tid db = (.ok (), db') ∧ h1 = [])) ∧
    (failed = false → w'.held = h1 ++ tk) ∧ (failed = true → w'.held = [] ∧ tk = [])

theorem pollFlush_spec {k : Sched} {c : Nat} {w w' : ABuffered} {db db' : Db} {r : PollR Unit} (hq : w.Quiet)
    (hc : Realloc w c) (h : w.pollFlush s cfg fid k c db = (r, w', db')) :
    (r = .pending → Eff s cfg fid db w db' w' [] false ∧ (w.fut.isSome → w'.fut.isSome)) ∧
    (r = .panic → w' = w ∧ db' = db ∧ w.fut = some .finished) ∧
    (∀ u, r = .ready (.ok u) → Eff s cfg fid db w db' w' [] false ∧ w'.held = [] ∧ w'.buf = []) ∧
    (∀ e, r = .ready (.error e) → Eff s cfg fid db w db' w' [] true) := by
  unfold ABuffered.pollFlush at h
  have same : Eff s cfg fid db w db w [] false := ⟨hq, _, .inl ⟨rfl, rfl⟩, by simp, by simp⟩
  cases hf : w.fut with
  | some f =>
    cases f with
    | finished =>
      rw [hf] at h; cases h
      exact ⟨fun h => (by cases h), fun _ => ⟨rfl, rfl, rfl⟩, fun _ h => (by cases h), fun _ h => (by cases h)⟩
    | running b =>
      rw [hf] at h; cases h
      exact ⟨fun _ => ⟨same, fun _ => by rw [hf]; rfl⟩, fun h => (by cases h), fun _ h => (by cases h), fun _ h => (by cases h)⟩
    | applied b res =>
      have hb : w.buf = [] := hq.quiet _ hf (by simp)
      rw [hf] at h
      simp only at h
      split at h
      · cases h
        have hh : ({ w with fut := none } : ABuffered).held = [] := by simp [ABuffered.held, futHeld, hb]
        have hq' : ({ w with fut := none } : ABuffered).Quiet := ⟨fun f hf => (by cases hf), hq.fits, fun _ => hh⟩
        refine ⟨fun h => (by cases h), fun h => (by cases h), fun u hu => ?_, fun e he => ?_⟩
        · cases hu
          refine ⟨⟨hq', w.held, .inl ⟨rfl, rfl⟩, fun _ => ?_, by simp⟩, hh, hb⟩
          rw [hh]; simp [ABuffered.held, futHeld, hf, hb]
        · cases he
          exact ⟨hq', _, .inl ⟨rfl, rfl⟩, by simp, fun _ => ⟨hh, rfl⟩⟩
      · cases h
        exact ⟨fun _ => ⟨same, fun _ => by rw [hf]; rfl⟩, fun h => (by cases h), fun _ h => (by cases h), fun _ h => (by cases h)⟩
  | none =>
    rw [hf] at h
    simp only at h
    have hheld : w.held = w.buf := by simp [ABuffered.held, futHeld, hf]
    split at h
    · rename_i hb
      cases h
      exact ⟨fun h => (by cases h), fun h => (by cases h), fun _ _ => ⟨same, by rw [hheld, hb], hb⟩, fun _ h => (by cases h)⟩
    · rename_i hb
      have hpos : 0 < c := by
        have h1 := List.length_pos_iff.mpr hb
        have h2 := hq.fits
        have h3 := hc.1
        omega
      cases hn : k.now with
      | none =>
        rw [hn] at h
        cases h
        refine ⟨fun _ => ⟨⟨⟨fun _ _ _ => rfl, Nat.zero_le _, fun h => (by simp at h; omega)⟩, _, .inl ⟨rfl, rfl⟩, fun _ => ?_, by simp⟩, fun h => by cases h⟩,
          fun h => (by cases h), fun _ h => (by cases h), fun _ h => (by cases h)⟩
        rw [hheld]; simp [ABuffered.held, futHeld]
      | some p =>
        obtain ⟨ts, tid⟩ := p
        rw [hn] at h
        simp only at h
        generalize ha : append s cfg w.buf fid ts tid db = x at h
        obtain ⟨res, d⟩ := x
        cases h
        refine ⟨fun h => (by cases h), fun h => (by cases h), fun u hu => ?_, fun e he => ?_⟩
        · cases hu
          exact ⟨⟨⟨fun _ _ _ => rfl, Nat.zero_le _, fun _ => rfl⟩, [], .inr ⟨ts, tid, by rw [hheld]; exact ha, rfl⟩, fun _ => rfl, by simp⟩, rfl, rfl⟩
        · cases he
          exact ⟨⟨fun _ _ _ => rfl, Nat.zero_le _, fun _ => rfl⟩, _, .inl ⟨append_fails ha, rfl⟩, by simp, fun _ => ⟨rfl, rfl⟩⟩

theorem aput_spec (w : ABuffered) (data : Bytes) (hw : w.Quiet) (hq : w.fut = none ∨ w.fut = some .finished) :
    (w.put data).2.Quiet ∧ (w.put data).2.held = w.held ++ data.take (w.put data).1 := by
  unfold ABuffered.put
  have hf : futHeld w.fut = [] := by rcases hq with h | h <;> rw [h] <;> rfl
  split
  · rename_i h; subst h
    exact ⟨hw, by simp⟩
  · have hfit := hw.fits
    refine ⟨⟨fun f hf hn => ?_, ?_, fun h0 => ?_⟩, by simp [ABuffered.held]⟩
    · simp only at hf
      rcases hq with h | h <;> rw [h] at hf <;> cases hf
      exact absurd rfl hn
    · simp only [List.length_append, List.length_take]; omega
    · simp only at h0
      have : w.buf = [] := List.length_eq_zero_iff.mp (by omega)
      simp [ABuffered.held, hf, this, h0]

theorem pollFlush_ready {k : Sched} {c : Nat} {w w' : ABuffered} {db db' : Db} {u : Unit}
    (h : w.pollFlush s cfg fid k c db = (.ready (.ok u), w', db')) : w'.fut = none ∨ w'.fut = some .finished := by
  unfold ABuffered.pollFlush at h
  split at h
  · cases h
  · cases h
  · split at h
    · cases h; exact .inl rfl
    · cases h
  · split at h
    · cases h; left; assumption
    · split at h
      · cases h
      · have := congrArg (fun x => x.2.1.fut) h
        exact .inr this.symm

/-- The poll panics only with a future that has returned its result. -/
theorem pollWriteWith_spec {k : Sched} {c : Nat} {w w' : ABuffered} {data : Bytes} {db db' : Db} {r : PollR Nat} (hq : w.Quiet)
    (hc : Realloc w c) (h : w.pollWriteWith s cfg fid k c data db = (r, w', db')) :
    (r = .pending → Eff s cfg fid db w db' w' [] false) ∧
    (r = .panic → Eff s cfg fid db w db' w' [] false ∧ w.fut = some .finished) ∧
    (∀ n, r = .ready (.ok n) → Eff s cfg fid db w db' w' (data.take n) false) ∧
    (∀ e, r = .ready (.error e) → Eff s cfg fid db w db' w' [] true) := by
  unfold ABuffered.pollWriteWith at h
  split at h
  · generalize hp : w.pollFlush s cfg fid k c db = x at h
    obtain ⟨q, v, d⟩ := x
    have hs := pollFlush_spec hq hc hp
    cases q with
    | pending => cases h; exact ⟨fun _ => (hs.1 rfl).1, fun h => (by cases h), fun _ h => (by cases h), fun _ h => (by cases h)⟩
    | panic =>
      cases h
      obtain ⟨rfl, rfl, hf⟩ := hs.2.1 rfl
      exact ⟨fun h => (by cases h), fun _ => ⟨⟨hq, _, .inl ⟨rfl, rfl⟩, by simp, by simp⟩, hf⟩, fun _ h => (by cases h), fun _ h => (by cases h)⟩
    | ready q =>
      cases q with
      | error e =>
        cases h
        exact ⟨fun h => (by cases h), fun h => (by cases h), fun _ h => (by cases h), fun _ _ => hs.2.2.2 e rfl⟩
      | ok u =>
        cases h
        refine ⟨fun h => (by cases h), fun h => (by cases h), fun n hn => ?_, fun _ h => (by cases h)⟩
        cases hn
        obtain ⟨⟨hv, h1, h2, h3, -⟩, -⟩ := hs.2.2.1 u rfl
        obtain ⟨p1, p2⟩ := aput_spec v data hv (pollFlush_ready hp)
        refine ⟨p1, h1, h2, fun _ => ?_, by simp⟩
        rw [p2, h3 rfl]; simp
  · rename_i hne
    cases h
    refine ⟨fun h => (by cases h), fun h => (by cases h), fun n hn => ?_, fun _ h => (by cases h)⟩
    cases hn
    have hf : w.fut = none := by
      cases hf : w.fut with
      | none => rfl
      | some f => exact absurd (.inl (by rw [hf]; rfl)) hne
    obtain ⟨p1, p2⟩ := aput_spec w data hq (.inl hf)
    exact ⟨p1, _, .inl ⟨rfl, rfl⟩, fun _ => p2, by simp⟩

theorem pollWrite_spec (hz : 0 < cfg.size) {k : Sched} {c₀ c : Nat} {w w' : ABuffered} {data : Bytes} {db db' : Db} {r : PollR Nat}
    (hq : w.Quiet) (hc : WriteAlloc cfg w c₀ c) (h : w.pollWrite s cfg fid k c₀ c data db = (r, w', db')) :
    (r = .pending → Eff s cfg fid db w db' w' [] false) ∧
    (r = .panic → Eff s cfg fid db w db' w' [] false ∧ w.fut = some .finished) ∧
    (∀ n, r = .ready (.ok n) → Eff s cfg fid db w db' w' (data.take n) false) ∧
    (∀ e, r = .ready (.error e) → Eff s cfg fid db w db' w' [] true) := by
  unfold ABuffered.pollWrite at h
  split at h
  · rw [if_neg (by omega)] at h
    rename_i h0
    have hc' := hc.2
    rw [if_pos h0] at hc'
    have hfit := hq.fits
    exact pollWriteWith_spec (w := { w with cap := c₀ })
      ⟨hq.quiet, (show w.buf.length ≤ c₀ by omega), fun _ => hq.empty h0⟩ hc' h
  · rename_i h0
    have hc' := hc.2
    rw [if_neg h0] at hc'
    exact pollWriteWith_spec hq hc' h

theorem pollResize_spec {k : Sched} {c c' : Nat} {w w' : ABuffered} {db db' : Db} {r : PollR Unit} (hq : w.Quiet)
    (hc : Realloc w c) (h : w.pollResize s cfg fid k c c' db = (r, w', db')) :
    (r = .pending → Eff s cfg fid db w db' w' [] false) ∧
    (r = .panic → Eff s cfg fid db w db' w' [] false ∧ w.fut = some .finished) ∧
    (∀ u, r = .ready (.ok u) → Eff s cfg fid db w db' w' [] false ∧ w'.held = []) ∧
    (∀ e, r = .ready (.error e) → Eff s cfg fid db w db' w' [] true) := by
  unfold ABuffered.pollResize at h
  split at h
  · generalize hp : w.pollFlush s cfg fid k c db = x at h
    obtain ⟨q, v, d⟩ := x
    have hs := pollFlush_spec hq hc hp
    cases q with
    | pending => cases h; exact ⟨fun _ => (hs.1 rfl).1, fun h => (by cases h), fun _ h => (by cases h), fun _ h => (by cases h)⟩
    | panic =>
      cases h
      obtain ⟨rfl, rfl, hf⟩ := hs.2.1 rfl
      exact ⟨fun h => (by cases h), fun _ => ⟨⟨hq, _, .inl ⟨rfl, rfl⟩, by simp, by simp⟩, hf⟩, fun _ h => (by cases h), fun _ h => (by cases h)⟩
    | ready q =>
      cases q with
      | error e =>
        cases h
        exact ⟨fun h => (by cases h), fun h => (by cases h), fun _ h => (by cases h), fun _ _ => hs.2.2.2 e rfl⟩
      | ok u =>
        cases h
        refine ⟨fun h => (by cases h), fun h => (by cases h), fun n hn => ?_, fun _ h => (by cases h)⟩
        obtain ⟨⟨-, h1, h2, h3, -⟩, hv, hb⟩ := hs.2.2.1 u rfl
        have hh : ({ v with cap := c', buf := [] } : ABuffered).held = [] := by
          have : futHeld v.fut = [] := (List.append_eq_nil_iff.mp hv).1
          simp [ABuffered.held, this]
        refine ⟨⟨⟨fun _ _ _ => rfl, Nat.zero_le _, fun _ => hh⟩, h1, h2, fun _ => ?_, by simp⟩, hh⟩
        rw [hh, ← h3 rfl, hv]
  · rename_i hne
    cases h
    refine ⟨fun h => (by cases h), fun h => (by cases h), fun n hn => ?_, fun _ h => (by cases h)⟩
    have hw := hq.empty (by omega)
    have hh : ({ w with cap := c', buf := [] } : ABuffered).held = [] := by
      have : futHeld w.fut = [] := (List.append_eq_nil_iff.mp hw).1
      simp [ABuffered.held, this]
    exact ⟨⟨⟨fun _ _ _ => rfl, Nat.zero_le _, fun _ => hh⟩, _, .inl ⟨rfl, rfl⟩, fun _ => by rw [hh, hw]; rfl, by simp⟩, hh⟩

/-! ## All executions -/

/-- What holds after the events `es`. -/
structure AInv (s : Schema) (cfg : Cfg) (fid : Nat) (db : Db) (es : List Ev) (σ : AState) (ps : List Bytes)
    (ops : List FOp) : Prop where
  run : Run s cfg db ops σ.db
  order : Interleaved fid ps (envOps es) ops
  /-- The appended bytes, then those held or left to the background, are among those accepted, in order. -/
  sub : (ps.flatten ++ ((σ.w.elim [] ABuffered.held) ++ σ.bg.flatten)).Sublist (accepted es)
  quiet : ∀ w, σ.w = some w → w.Quiet ∧ σ.bg = []
  /-- Without errors nothing is missing, until the writer is dropped. -/
  bytes : ∀ w, σ.w = some w → (∀ e ∈ es, e.fails = false) → ps.flatten ++ w.held = accepted es ∧ w.held <:+ unflushed es

theorem ainv (hz : 0 < cfg.size) (hf : fid < 2 ^ 32) {db : Db} {es : List Ev} {σ : AState}
    (h : AExec s cfg fid K ⟨some .new, [], db⟩ es σ) : ∃ ps ops, AInv s cfg fid db es σ ps ops := by
  induction h with
  | nil =>
    refine ⟨[], [], .refl _, .nil, List.Sublist.refl _, ?_, ?_⟩
    · intro w hw; cases hw
      exact ⟨⟨fun _ h => (by cases h), Nat.le_refl _, fun _ => rfl⟩, rfl⟩
    · intro w hw _; cases hw; exact ⟨rfl, List.suffix_refl _⟩
  | @snoc es σ₁ e σ₂ h hs ih =>
    obtain ⟨ps, ops, hi⟩ := ih
    -- a poll
    have poll : ∀ {w w' : ABuffered} {bg : List Bytes} {db₁ db₂ : Db} {e : Ev} {tk : Bytes} {failed : Bool},
        σ₁ = ⟨some w, bg, db₁⟩ → Eff s cfg fid db₁ w db₂ w' tk failed → took e = tk → envOf e = [] → e.fails = failed →
        (e.flushes = true → w'.held = []) →
        ∃ ps ops, AInv s cfg fid db (es ++ [e]) ⟨some w', bg, db₂⟩ ps ops := by
      intro w w' bg db₁ db₂ e tk failed hσ heff htk henv hfail hflush
      subst hσ
      obtain ⟨hq, hbg⟩ := hi.quiet w rfl
      simp only at hbg
      subst hbg
      have hsub := hi.sub
      simp only [Option.elim, List.flatten_nil, List.append_nil] at hsub
      obtain ⟨hq', h1, hcase, hok, hbad⟩ := heff
      have fin : ∀ (ps' : List Bytes) (ops' : List FOp), Run s cfg db ops' db₂ → Interleaved fid ps' (envOps es) ops' →
          ps'.flatten ++ h1 = ps.flatten ++ w.held → (h1 = w.held ∨ h1 = []) →
          AInv s cfg fid db (es ++ [e]) ⟨some w', [], db₂⟩ ps' ops' := by
        intro ps' ops' hr ho hb hh
        refine ⟨hr, by rw [envOps_snoc, henv, List.append_nil]; exact ho, ?_, ?_, ?_⟩
        · simp only [Option.elim, List.flatten_nil, List.append_nil]
          rw [accepted_snoc, htk]
          cases failed with
          | false =>
            rw [hok rfl, ← List.append_assoc, hb]
            exact List.Sublist.append hsub (List.Sublist.refl _)
          | true =>
            rw [(hbad rfl).1, (hbad rfl).2, List.append_nil, List.append_nil]
            refine List.Sublist.trans ?_ hsub
            rw [← hb]
            exact List.sublist_append_left _ _
        · intro v hv; cases hv; exact ⟨hq', rfl⟩
        · intro v hv hnf
          cases hv
          have hf' : failed = false := by rw [← hfail]; exact hnf e (by simp)
          obtain ⟨b1, b2⟩ := hi.bytes w rfl fun e he => hnf e (by simp [he])
          constructor
          · rw [hok hf', accepted_snoc, htk, ← List.append_assoc, hb, b1]
          · rw [unflushed_snoc]
            by_cases hfl : e.flushes = true
            · rw [if_pos hfl, hflush hfl]
              exact List.suffix_refl _
            · rw [if_neg hfl, hok hf', htk]
              rcases hh with rfl | rfl
              · obtain ⟨t, ht⟩ := b2
                exact ⟨t, by simp [← ht]⟩
              · exact ⟨_, rfl⟩
      rcases hcase with ⟨rfl, rfl⟩ | ⟨now, tid, ha, rfl⟩
      · exact ⟨ps, ops, fin ps ops hi.run hi.order rfl (.inl rfl)⟩
      · exact ⟨ps ++ [w.held], ops ++ [.append fid w.held],
          fin _ _ (.append hi.run hf ha) (.mine _ hi.order) (by simp) (.inr rfl)⟩
    cases hs with
    | write hk hc hw =>
      exact poll rfl ((pollWrite_spec hz (hi.quiet _ rfl).1 hc hw).2.2.1 _ rfl) rfl rfl rfl (fun h => by cases h)
    | writeFails hk hc hw =>
      exact poll rfl ((pollWrite_spec hz (hi.quiet _ rfl).1 hc hw).2.2.2 _ rfl) rfl rfl rfl (fun h => by cases h)
    | writePends hk hc hw =>
      exact poll rfl ((pollWrite_spec hz (hi.quiet _ rfl).1 hc hw).1 rfl) rfl rfl rfl (fun h => by cases h)
    | writePanics hk hc hw =>
      exact poll rfl ((pollWrite_spec hz (hi.quiet _ rfl).1 hc hw).2.1 rfl).1 rfl rfl rfl (fun h => by cases h)
    | flush hk hc hw =>
      have := (pollFlush_spec (hi.quiet _ rfl).1 hc hw).2.2.1 _ rfl
      exact poll rfl this.1 rfl rfl rfl (fun _ => this.2.1)
    | flushFails hk hc hw =>
      exact poll rfl ((pollFlush_spec (hi.quiet _ rfl).1 hc hw).2.2.2 _ rfl) rfl rfl rfl (fun h => by cases h)
    | flushPends hk hc hw =>
      exact poll rfl ((pollFlush_spec (hi.quiet _ rfl).1 hc hw).1 rfl).1 rfl rfl rfl (fun h => by cases h)
    | flushPanics hk hc hw =>
      obtain ⟨h1, h2, -⟩ := (pollFlush_spec (hi.quiet _ rfl).1 hc hw).2.1 rfl
      subst h1; subst h2
      exact poll rfl ⟨(hi.quiet _ rfl).1, _, .inl ⟨rfl, rfl⟩, fun _ => (List.append_nil _).symm, fun h => by cases h⟩ rfl rfl rfl
        (fun h => by cases h)
    | resize hk hc hr hw =>
      have := (pollResize_spec (hi.quiet _ rfl).1 hc hw).2.2.1 _ rfl
      exact poll rfl this.1 rfl rfl rfl (fun _ => this.2)
    | resizeFails hk hc hr hw =>
      exact poll rfl ((pollResize_spec (hi.quiet _ rfl).1 hc hw).2.2.2 _ rfl) rfl rfl rfl (fun h => by cases h)
    | resizePends hk hc hr hw =>
      exact poll rfl ((pollResize_spec (hi.quiet _ rfl).1 hc hw).1 rfl) rfl rfl rfl (fun h => by cases h)
    | resizePanics hk hc hr hw =>
      exact poll rfl ((pollResize_spec (hi.quiet _ rfl).1 hc hw).2.1 rfl).1 rfl rfl rfl (fun h => by cases h)
    | @runs cap buf b bg db₁ now tid r db' ha =>
      have hq := (hi.quiet _ rfl).1
      have hb : buf = [] := hq.quiet _ rfl (by simp)
      subst hb
      have hpos : 0 < cap ∨ b = [] := by
        rcases Nat.eq_zero_or_pos cap with h | h
        · exact .inr (List.append_eq_nil_iff.mp (hq.empty h)).1
        · exact .inl h
      cases r with
      | error e =>
        have := append_fails ha
        subst this
        exact poll rfl ⟨⟨fun _ _ _ => rfl, Nat.zero_le _, hq.empty⟩, _, .inl ⟨rfl, rfl⟩, fun _ => (List.append_nil _).symm,
          fun h => by cases h⟩ rfl rfl rfl (fun h => by cases h)
      | ok u =>
        exact poll rfl ⟨⟨fun _ _ _ => rfl, Nat.zero_le _, fun _ => rfl⟩, [],
          .inr ⟨now, tid, by simpa [ABuffered.held, futHeld] using ha, rfl⟩, fun _ => rfl, fun h => by cases h⟩ rfl rfl rfl
          (fun h => by cases h)
    | @drop w l bg db₁ hd =>
      obtain ⟨hq, hbg⟩ := hi.quiet w rfl
      simp only at hbg
      subst hbg
      refine ⟨ps, ops, hi.run, by rw [envOps_snoc]; simpa [envOf] using hi.order, ?_, fun w hw => (by cases hw),
        fun w hw => (by cases hw)⟩
      have hsub := hi.sub
      simp only [Option.elim, List.flatten_nil, List.append_nil] at hsub
      rw [accepted_snoc]
      simp only [took, Option.elim, List.nil_append, List.append_nil]
      refine List.Sublist.trans (List.Sublist.append (List.Sublist.refl _) ?_) hsub
      unfold ABuffered.drop at hd
      unfold ABuffered.held
      split at hd
      · rename_i hb
        split at hd
        · cases hd
        · cases hd
          simp
      · split at hd
        · rename_i b hfut
          cases hd
          rw [hfut]
          simp [futHeld]
        · cases hd; simp
    | @dropPanics w bg db₁ hd =>
      refine ⟨ps, ops, hi.run, by rw [envOps_snoc]; simpa [envOf] using hi.order, ?_, fun w hw => (by cases hw),
        fun w hw => (by cases hw)⟩
      have hsub := hi.sub
      obtain ⟨hq, hbg⟩ := hi.quiet w rfl
      simp only at hbg
      subst hbg
      rw [accepted_snoc]
      simp only [took, Option.elim, List.flatten_nil, List.append_nil] at hsub ⊢
      exact List.Sublist.trans (List.sublist_append_left _ _) hsub
    | @bgRuns w b bg db₁ now tid r db' ha =>
      have hn : w = none := by
        cases w with
        | none => rfl
        | some w => have := (hi.quiet w rfl).2; cases this
      subst hn
      have hsub := hi.sub
      simp only [Option.elim, List.nil_append, List.flatten_cons] at hsub
      cases r with
      | error e =>
        have := append_fails ha
        subst this
        refine ⟨ps, ops, hi.run, by rw [envOps_snoc]; simpa [envOf] using hi.order, ?_, fun w hw => (by cases hw),
          fun w hw => (by cases hw)⟩
        rw [accepted_snoc]
        simp only [took, Option.elim, List.nil_append, List.append_nil]
        exact List.Sublist.trans (List.Sublist.append (List.Sublist.refl _) (List.sublist_append_right _ _)) hsub
      | ok u =>
        refine ⟨ps ++ [b], ops ++ [.append fid b], .append hi.run hf ha,
          by rw [envOps_snoc]; simpa [envOf] using Interleaved.mine b hi.order, ?_, fun w hw => (by cases hw),
          fun w hw => (by cases hw)⟩
        rw [accepted_snoc]
        simpa [took] using hsub
    | @bgLost w b bg db₁ =>
      have hn : w = none := by
        cases w with
        | none => rfl
        | some w => have := (hi.quiet w rfl).2; cases this
      subst hn
      have hsub := hi.sub
      simp only [Option.elim, List.nil_append, List.flatten_cons] at hsub
      refine ⟨ps, ops, hi.run, by rw [envOps_snoc]; simpa [envOf] using hi.order, ?_, fun w hw => (by cases hw),
        fun w hw => (by cases hw)⟩
      rw [accepted_snoc]
      simp only [took, Option.elim, List.nil_append, List.append_nil]
      exact List.Sublist.trans (List.Sublist.append (List.Sublist.refl _) (List.sublist_append_right _ _)) hsub
    | @env w bg db₁ eops db' hr =>
      refine ⟨ps, ops ++ eops, run_trans hi.run hr, by rw [envOps_snoc]; exact interleaved_others hi.order _, ?_,
        hi.quiet, fun v hv hnf => ?_⟩
      · rw [accepted_snoc]; simpa [took] using hi.sub
      · obtain ⟨b1, b2⟩ := hi.bytes v hv fun e he => hnf e (by simp [he])
        rw [accepted_snoc, unflushed_snoc]
        simpa [took, Ev.flushes] using ⟨b1, b2⟩

/-- **C77** (asynchronous): in every execution, with errors, panics, cancellations and drops, the database has
executed appends of pieces of the accepted bytes: nothing twice, nothing that was not accepted, in order. -/
theorem C77_async_order (s : Schema) (cfg : Cfg) (hz : 0 < cfg.size) (fid : Nat) (hf : fid < 2 ^ 32) (db : Db)
    (es : List Ev) (σ : AState) (h : AExec s cfg fid Any ⟨some .new, [], db⟩ es σ) :
    ∃ ps ops, Run s cfg db ops σ.db ∧ Interleaved fid ps (envOps es) ops ∧ ps.flatten.Sublist (accepted es) := by
  obtain ⟨ps, ops, hi⟩ := ainv hz hf h
  exact ⟨ps, ops, hi.run, hi.order, List.Sublist.trans (List.sublist_append_left _ _) hi.sub⟩

/-- **C77** (asynchronous, partial): as long as no call has reported an error and the writer is not dropped, nothing
is missing but a tail accepted after the last successful flush. -/
theorem C77_async_contents_partial (s : Schema) (cfg : Cfg) (hs : HasFiles s cfg) (hz : 0 < cfg.size) (fid : Nat)
    (hf : fid < 2 ^ 32) (db : Db) (hwf : BlocksWF cfg (db.trees.docs cfg.blocks)) (es : List Ev) (w : ABuffered)
    (bg : List Bytes) (db' : Db) (h : AExec s cfg fid Any ⟨some .new, [], db⟩ es ⟨some w, bg, db'⟩)
    (hothers : ∀ o ∈ envOps es, Elsewhere fid o) (hnofail : ∀ e ∈ es, e.fails = false) :
    ∃ rest, contents cfg db' fid ++ rest = contents cfg db fid ++ accepted es ∧ rest <:+ unflushed es := by
  obtain ⟨ps, ops, hi⟩ := ainv hz hf h
  obtain ⟨h1, h2⟩ := hi.bytes w rfl hnofail
  have := possible_interleaved hi.order hothers ((C50_history s cfg hs hz db db' ops hwf hi.run).2 fid)
  exact ⟨w.held, by rw [this, ← h1]; simp, h2⟩

/-- **C77** (asynchronous, partial): after a flush that succeeded, everything accepted so far is in the file, unless
an error was reported before. -/
theorem C77_async_flushed_partial (s : Schema) (cfg : Cfg) (hs : HasFiles s cfg) (hz : 0 < cfg.size) (fid : Nat)
    (hf : fid < 2 ^ 32) (db : Db) (hwf : BlocksWF cfg (db.trees.docs cfg.blocks)) (es : List Ev) (e : Ev)
    (he : e = .flushed ∨ e = .resized) (w : ABuffered)
    (bg : List Bytes) (db' : Db) (h : AExec s cfg fid Any ⟨some .new, [], db⟩ (es ++ [e]) ⟨some w, bg, db'⟩)
    (hothers : ∀ o ∈ envOps es, Elsewhere fid o) (hnofail : ∀ e ∈ es, e.fails = false) :
    contents cfg db' fid = contents cfg db fid ++ accepted es := by
  obtain ⟨rest, h1, h2⟩ := C77_async_contents_partial s cfg hs hz fid hf db hwf _ w bg db' h
    (by rw [envOps_snoc]; rcases he with rfl | rfl <;> simpa [envOf] using hothers)
    (by
      intro e' he'
      rcases List.mem_append.mp he' with he' | he'
      · exact hnofail e' he'
      · cases List.mem_singleton.mp he'
        rcases he with rfl | rfl <;> rfl)
  have : unflushed (es ++ [e]) = [] := by rw [unflushed_snoc]; rcases he with rfl | rfl <;> rfl
  rw [this] at h2
  have hr : rest = [] := List.suffix_nil.mp h2
  subst hr
  rw [accepted_snoc] at h1
  rcases he with rfl | rfl <;> simpa [took] using h1

/-- With futures that never complete in their first poll, no future is polled after its result. -/
theorem never_finished {σ₀ σ : AState} {es : List Ev}
    (h : AExec s cfg fid NeverAtOnce σ₀ es σ) (h0 : ∀ w, σ₀.w = some w → w.fut ≠ some .finished) :
    (∀ w, σ.w = some w → w.fut ≠ some .finished) := by
  have pf : ∀ {k : Sched} {c : Nat} {w w' : ABuffered} {db db' : Db} {r : PollR Unit}, k.now = none →
      w.fut ≠ some .finished → w.pollFlush s cfg fid k c db = (r, w', db') → w'.fut ≠ some .finished ∧ r ≠ .panic := by
    intro k c w w' db db' r hk hw h
    unfold ABuffered.pollFlush at h
    split at h
    · rename_i hf; exact absurd hf hw
    · cases h; exact ⟨hw, by simp⟩
    · split at h
      · cases h; exact ⟨by simp, by simp⟩
      · cases h; exact ⟨hw, by simp⟩
    · split at h
      · cases h; exact ⟨hw, by simp⟩
      · rw [hk] at h; cases h; exact ⟨by simp, by simp⟩
  have put : ∀ (w : ABuffered) (data : Bytes), (w.put data).2.fut = w.fut := by
    intro w data; unfold ABuffered.put; split <;> rfl
  have pww : ∀ {k : Sched} {c : Nat} {w w' : ABuffered} {data : Bytes} {db db' : Db} {r : PollR Nat}, k.now = none →
      w.fut ≠ some .finished → w.pollWriteWith s cfg fid k c data db = (r, w', db') → w'.fut ≠ some .finished := by
    intro k c w w' data db db' r hk hw h
    unfold ABuffered.pollWriteWith at h
    split at h
    · generalize hp : w.pollFlush s cfg fid k c db = x at h
      obtain ⟨q, v, d⟩ := x
      have := (pf hk hw hp).1
      cases q with
      | pending => cases h; exact this
      | panic => cases h; exact this
      | ready q => cases q <;> cases h <;> first | exact this | (rw [put]; exact this)
    · cases h; rw [put]; exact hw
  have pw : ∀ {k : Sched} {c₀ c : Nat} {w w' : ABuffered} {data : Bytes} {db db' : Db} {r : PollR Nat}, k.now = none →
      w.fut ≠ some .finished → w.pollWrite s cfg fid k c₀ c data db = (r, w', db') → w'.fut ≠ some .finished := by
    intro k c₀ c w w' data db db' r hk hw h
    unfold ABuffered.pollWrite at h
    split at h
    · split at h
      · cases h; exact hw
      · exact pww (w := { w with cap := c₀ }) hk hw h
    · exact pww hk hw h
  have pr : ∀ {k : Sched} {c c' : Nat} {w w' : ABuffered} {db db' : Db} {r : PollR Unit}, k.now = none →
      w.fut ≠ some .finished → w.pollResize s cfg fid k c c' db = (r, w', db') → w'.fut ≠ some .finished := by
    intro k c c' w w' db db' r hk hw h
    unfold ABuffered.pollResize at h
    split at h
    · generalize hp : w.pollFlush s cfg fid k c db = x at h
      obtain ⟨q, v, d⟩ := x
      have := (pf hk hw hp).1
      cases q with
      | pending => cases h; exact this
      | panic => cases h; exact this
      | ready q => cases q <;> cases h <;> exact this
    · cases h; exact hw
  induction h with
  | nil => exact h0
  | snoc _ hs ih =>
    intro v hv
    cases hs with
    | write hk _ hw => cases hv; exact pw hk (ih _ rfl) hw
    | writeFails hk _ hw => cases hv; exact pw hk (ih _ rfl) hw
    | writePends hk _ hw => cases hv; exact pw hk (ih _ rfl) hw
    | writePanics hk _ hw => cases hv; exact pw hk (ih _ rfl) hw
    | flush hk _ hw => cases hv; exact (pf hk (ih _ rfl) hw).1
    | flushFails hk _ hw => cases hv; exact (pf hk (ih _ rfl) hw).1
    | flushPends hk _ hw => cases hv; exact (pf hk (ih _ rfl) hw).1
    | flushPanics hk _ hw => cases hv; exact (pf hk (ih _ rfl) hw).1
    | resize hk _ _ hw => cases hv; exact pr hk (ih _ rfl) hw
    | resizeFails hk _ _ hw => cases hv; exact pr hk (ih _ rfl) hw
    | resizePends hk _ _ hw => cases hv; exact pr hk (ih _ rfl) hw
    | resizePanics hk _ _ hw => cases hv; exact pr hk (ih _ rfl) hw
    | runs ha => cases hv; simp
    | drop _ => cases hv
    | dropPanics _ => cases hv
    | bgRuns _ => exact ih v hv
    | bgLost => exact ih v hv
    | env _ => exact ih v hv

theorem aexec_any {σ₀ σ : AState} {es : List Ev} (h : AExec s cfg fid NeverAtOnce σ₀ es σ) : AExec s cfg fid Any σ₀ es σ := by
  induction h with
  | nil => exact .nil _
  | snoc _ hs ih =>
    refine .snoc ih ?_
    cases hs with
    | write _ hc hw => exact .write trivial hc hw
    | writeFails _ hc hw => exact .writeFails trivial hc hw
    | writePends _ hc hw => exact .writePends trivial hc hw
    | writePanics _ hc hw => exact .writePanics trivial hc hw
    | flush _ hc hw => exact .flush trivial hc hw
    | flushFails _ hc hw => exact .flushFails trivial hc hw
    | flushPends _ hc hw => exact .flushPends trivial hc hw
    | flushPanics _ hc hw => exact .flushPanics trivial hc hw
    | resize _ hc hr hw => exact .resize trivial hc hr hw
    | resizeFails _ hc hr hw => exact .resizeFails trivial hc hr hw
    | resizePends _ hc hr hw => exact .resizePends trivial hc hr hw
    | resizePanics _ hc hr hw => exact .resizePanics trivial hc hr hw
    | runs ha => exact .runs ha
    | drop h => exact .drop h
    | dropPanics h => exact .dropPanics h
    | bgRuns h => exact .bgRuns h
    | bgLost => exact .bgLost
    | env h => exact .env h

/-- **C77** (asynchronous, partial): nothing panics, neither a poll nor a drop, if no append completes within its
first poll. -/
theorem C77_async_no_panic_partial (s : Schema) (cfg : Cfg) (hz : 0 < cfg.size) (fid : Nat) (hf : fid < 2 ^ 32) (db : Db)
    (es : List Ev) (σ : AState) (h : AExec s cfg fid NeverAtOnce ⟨some .new, [], db⟩ es σ) : Ev.panicked ∉ es := by
  generalize hσ₀ : (⟨some .new, [], db⟩ : AState) = σ₀ at h
  induction h with
  | nil => simp
  | @snoc es σ₁ e σ₂ h hs ih =>
    intro hm
    rcases List.mem_append.mp hm with hm | hm
    · exact ih hm
    · cases List.mem_singleton.mp hm
      subst hσ₀
      have hnf := never_finished h (fun w hw => by cases hw; simp [ABuffered.new])
      obtain ⟨ps, ops, hi⟩ := ainv hz hf h
      cases hs with
      | writePanics hk hc hw => exact hnf _ rfl ((pollWrite_spec hz (hi.quiet _ rfl).1 hc hw).2.1 rfl).2
      | flushPanics hk hc hw => exact hnf _ rfl ((pollFlush_spec (hi.quiet _ rfl).1 hc hw).2.1 rfl).2.2
      | resizePanics hk hc hr hw => exact hnf _ rfl ((pollResize_spec (hi.quiet _ rfl).1 hc hw).2.1 rfl).2
      | @dropPanics w bg db₁ hd =>
        unfold ABuffered.drop at hd
        split at hd
        · rename_i hb
          split at hd
          · rename_i hf
            cases hfut : w.fut with
            | none => rw [hfut] at hf; cases hf
            | some f =>
              have hne : f ≠ .finished := fun h => hnf w rfl (by rw [hfut, h])
              exact hb ((hi.quiet w rfl).1.quiet f hfut hne)
          · cases hd
        · split at hd <;> cases hd

end Bonsai.Files
