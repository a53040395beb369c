import Verif.Files.Buffered

/-!
# C77: a buffered writer appends exactly the bytes it accepted, in order (the blocking writer)
-/
set_option linter.unusedSimpArgs false
set_option linter.unusedSectionVars false

namespace Bonsai.Files
open Bonsai Bonsai.Names Bonsai.Store Bonsai.Query

variable {s : Schema} {cfg : Cfg} {fid : Nat}

theorem accepted_snoc (es : List Ev) (e : Ev) : accepted (es ++ [e]) = accepted es ++ took e := by
  simp [accepted, List.flatMap_append]

theorem envOps_snoc (es : List Ev) (e : Ev) : envOps (es ++ [e]) = envOps es ++ envOf e := by
  simp [envOps, List.flatMap_append]

theorem unflushed_snoc (es : List Ev) (e : Ev) :
    unflushed (es ++ [e]) = if e.flushes then [] else unflushed es ++ took e := by
  simp [unflushed, List.foldl_append]

theorem run_trans {db ops db₁ ops' db₂} (h : Run s cfg db ops db₁) (h' : Run s cfg db₁ ops' db₂) :
    Run s cfg db (ops ++ ops') db₂ := by
  induction h' with
  | refl => simpa using h
  | append _ hf ha ih => rw [← List.append_assoc]; exact .append ih hf ha
  | appendFails _ ha ih => exact .appendFails ih ha
  | truncate _ ht ih => rw [← List.append_assoc]; exact .truncate ih ht
  | other _ ho ih => exact .other ih ho

theorem wexec_trans {σ σ₁ σ₂ : WState} {es es' : List Ev} (h : WExec s cfg fid σ es σ₁) (h' : WExec s cfg fid σ₁ es' σ₂) :
    WExec s cfg fid σ (es ++ es') σ₂ := by
  induction h' with
  | nil => simpa using h
  | snoc _ hs' ih => rw [← List.append_assoc]; exact .snoc ih hs'

theorem interleaved_others {ps env ops} (h : Interleaved fid ps env ops) : ∀ (os : List FOp),
    Interleaved fid ps (env ++ os) (ops ++ os) := by
  intro os
  induction os generalizing env ops with
  | nil => simpa using h
  | cons o os ih =>
    have := ih (.other o h)
    simpa using this

/-! ## The calls -/

theorem flush_ok {w w' : Buffered} {now tid db db'} (h : w.flush s cfg fid now tid db = (.ok (), w', db')) :
    append s cfg w.buf fid now tid db = (.ok (), db') ∧ w' = { w with buf := [] } := by
  unfold Buffered.flush at h
  generalize hr : append s cfg w.buf fid now tid db = r at h
  obtain ⟨r, d⟩ := r
  cases r with
  | ok u => cases h; exact ⟨rfl, rfl⟩
  | error e => cases h

theorem flush_error {w w' : Buffered} {now tid db db' e} (h : w.flush s cfg fid now tid db = (.error e, w', db')) :
    w' = w ∧ db' = db := by
  unfold Buffered.flush at h
  generalize hr : append s cfg w.buf fid now tid db = r at h
  obtain ⟨r, d⟩ := r
  cases r with
  | ok u => cases h
  | error e => cases h; exact ⟨rfl, append_fails hr⟩

theorem put_spec (w : Buffered) (data : Bytes) (hw : w.buf.length ≤ w.cap) :
    (w.put data).2.buf = w.buf ++ data.take (w.put data).1 ∧ (w.put data).2.cap = w.cap ∧
    (w.put data).2.buf.length ≤ w.cap ∧ (w.put data).1 ≤ data.length ∧
    (data ≠ [] → w.buf.length < w.cap → 0 < (w.put data).1) := by
  unfold Buffered.put
  split
  · rename_i h; subst h; simp [hw]
  · rename_i h
    have := List.length_pos_iff.mpr h
    refine ⟨rfl, rfl, ?_, Nat.min_le_left _ _, fun _ hl => ?_⟩
    · simp only [List.length_append, List.length_take]; omega
    · simp only; omega

/-- The cases of `write`: nothing is appended, or the full buffer is. -/
theorem write_ok {w w' : Buffered} {c now tid data db db' n} (hw : w.buf.length ≤ w.cap)
    (h : w.write s cfg fid c now tid data db = (.ok n, w', db')) :
    w'.buf.length ≤ w'.cap ∧
    ((db' = db ∧ w'.buf = w.buf ++ data.take n) ∨
      (append s cfg w.buf fid now tid db = (.ok (), db') ∧ w'.buf = data.take n)) := by
  unfold Buffered.write at h
  split at h
  · rename_i h0
    split at h
    · cases h
    · cases h
      have hb : w.buf = [] := List.length_eq_zero_iff.mp (by omega)
      have := put_spec { w with cap := c } data (by simp [hb])
      exact ⟨by rw [this.2.1]; exact this.2.2.1, .inl ⟨rfl, this.1⟩⟩
  · split at h
    · generalize hr : w.flush s cfg fid now tid db = r at h
      obtain ⟨r, v, d⟩ := r
      cases r with
      | error e => cases h
      | ok u =>
        cases h
        obtain ⟨h1, h2⟩ := flush_ok hr
        subst h2
        have := put_spec { w with buf := [] } data (by simp)
        exact ⟨by rw [this.2.1]; exact this.2.2.1, .inr ⟨h1, by rw [this.1]; rfl⟩⟩
    · cases h
      have := put_spec w data hw
      exact ⟨by rw [this.2.1]; exact this.2.2.1, .inl ⟨rfl, this.1⟩⟩

theorem write_error {w w' : Buffered} {c now tid data db db' e}
    (h : w.write s cfg fid c now tid data db = (.error e, w', db')) : w' = w ∧ db' = db := by
  unfold Buffered.write at h
  split at h
  · split at h
    · cases h; exact ⟨rfl, rfl⟩
    · cases h
  · split at h
    · generalize hr : w.flush s cfg fid now tid db = r at h
      obtain ⟨r, v, d⟩ := r
      cases r with
      | error e => cases h; exact flush_error hr
      | ok u => cases h
    · cases h

theorem resize_ok {w w' : Buffered} {c now tid db db'} (hw : w.buf.length ≤ w.cap)
    (h : w.resize s cfg fid c now tid db = (.ok (), w', db')) :
    w' = ⟨c, []⟩ ∧ ((db' = db ∧ w.buf = []) ∨ append s cfg w.buf fid now tid db = (.ok (), db')) := by
  unfold Buffered.resize at h
  split at h
  · generalize hr : w.flush s cfg fid now tid db = r at h
    obtain ⟨r, v, d⟩ := r
    cases r with
    | error e => cases h
    | ok u => cases h; exact ⟨rfl, .inr (flush_ok hr).1⟩
  · cases h
    exact ⟨rfl, .inl ⟨rfl, List.length_eq_zero_iff.mp (by omega)⟩⟩

theorem resize_error {w w' : Buffered} {c now tid db db' e}
    (h : w.resize s cfg fid c now tid db = (.error e, w', db')) : w' = w ∧ db' = db := by
  unfold Buffered.resize at h
  split at h
  · generalize hr : w.flush s cfg fid now tid db = r at h
    obtain ⟨r, v, d⟩ := r
    cases r with
    | error e => cases h; exact flush_error hr
    | ok u => cases h
  · cases h

/-! ## All executions -/

/-- The state of a writer after the events `es`, with what was appended so far. -/
structure WInv (s : Schema) (cfg : Cfg) (fid : Nat) (db : Db) (es : List Ev) (σ : WState) (ps : List Bytes)
    (ops : List FOp) (rest : Bytes) : Prop where
  run : Run s cfg db ops σ.db
  order : Interleaved fid ps (envOps es) ops
  bytes : ps.flatten ++ rest = accepted es
  bound : rest <:+ unflushed es
  held : ∀ w, σ.w = some w → rest = w.buf ∧ w.buf.length ≤ w.cap

theorem winv (hf : fid < 2 ^ 32) {db : Db} {es : List Ev} {σ : WState}
    (h : WExec s cfg fid ⟨some .new, db⟩ es σ) : ∃ ps ops rest, WInv s cfg fid db es σ ps ops rest := by
  induction h with
  | nil =>
    exact ⟨[], [], [], .refl _, .nil, rfl, List.suffix_refl _, fun w hw => by cases hw; exact ⟨rfl, Nat.le_refl _⟩⟩
  | @snoc es σ₁ e σ₂ h hs ih =>
    obtain ⟨ps, ops, rest, hi⟩ := ih
    have keep : ∀ (e : Ev) (σ₂ : WState), σ₂.db = σ₁.db → e.flushes = false → took e = [] → envOf e = [] →
        (∀ w, σ₂.w = some w → σ₁.w = some w) → WInv s cfg fid db (es ++ [e]) σ₂ ps ops rest := by
      intro e σ₂ h1 h2 h3 h4 h5
      refine ⟨by rw [h1]; exact hi.run, by rw [envOps_snoc, h4, List.append_nil]; exact hi.order,
        by rw [accepted_snoc, h3, List.append_nil]; exact hi.bytes,
        by rw [unflushed_snoc, h2, h3]; simpa using hi.bound, fun w hw => hi.held w (h5 w hw)⟩
    have flushed : ∀ (w : Buffered) (e : Ev) (σ₂ : WState) (now : BitVec 64) (tid : Nat), σ₁.w = some w →
        append s cfg w.buf fid now tid σ₁.db = (.ok (), σ₂.db) → took e = [] → envOf e = [] →
        (∀ w', σ₂.w = some w' → w'.buf = []) →
        WInv s cfg fid db (es ++ [e]) σ₂ (ps ++ [w.buf]) (ops ++ [.append fid w.buf]) [] := by
      intro w e σ₂ now tid h1 h2 h3 h4 h5
      obtain ⟨hr, -⟩ := hi.held w h1
      refine ⟨.append hi.run hf h2, by rw [envOps_snoc, h4, List.append_nil]; exact .mine _ hi.order,
        ?_, List.nil_suffix, fun w' hw' => ?_⟩
      · rw [accepted_snoc, h3, ← hi.bytes, hr]; simp
      · rw [h5 w' hw']; exact ⟨rfl, Nat.zero_le _⟩
    cases hs with
    | @write w db₁ data c now tid n w' db' hc hw =>
      obtain ⟨hr, hl⟩ := hi.held w rfl
      obtain ⟨h1, ⟨h2, h3⟩ | ⟨h2, h3⟩⟩ := write_ok hl hw
      · subst h2
        refine ⟨ps, ops, w'.buf, hi.run, by rw [envOps_snoc]; simpa [envOf] using hi.order, ?_, ?_, ?_⟩
        · rw [accepted_snoc, ← hi.bytes, hr, h3]; simp [took]
        · rw [unflushed_snoc, h3, ← hr]
          simp only [Ev.flushes, took]
          obtain ⟨t, ht⟩ := hi.bound
          exact ⟨t, by simp [← ht]⟩
        · intro v hv; cases hv; exact ⟨rfl, h1⟩
      · refine ⟨ps ++ [w.buf], ops ++ [.append fid w.buf], w'.buf, .append hi.run hf h2,
          by rw [envOps_snoc]; simpa [envOf] using Interleaved.mine _ hi.order, ?_, ?_, ?_⟩
        · rw [accepted_snoc, ← hi.bytes, hr, h3]; simp [took]
        · rw [unflushed_snoc, h3]
          simp only [Ev.flushes, took]
          exact ⟨_, rfl⟩
        · intro v hv; cases hv; exact ⟨rfl, h1⟩
    | writeFails hc hw =>
      obtain ⟨h1, h2⟩ := write_error hw
      subst h1; subst h2
      exact ⟨ps, ops, rest, keep _ _ rfl rfl rfl rfl fun w hw => hw⟩
    | flush hw =>
      obtain ⟨h1, h2⟩ := flush_ok hw
      exact ⟨_, _, _, flushed _ _ _ _ _ rfl h1 rfl rfl (by intro w' hw'; cases hw'; rw [h2])⟩
    | flushFails hw =>
      obtain ⟨h1, h2⟩ := flush_error hw
      subst h1; subst h2
      exact ⟨ps, ops, rest, keep _ _ rfl rfl rfl rfl fun w hw => hw⟩
    | @resize w db₁ req c now tid w' db' hc hw =>
      obtain ⟨hr, hl⟩ := hi.held w rfl
      obtain ⟨h1, ⟨h2, h3⟩ | h2⟩ := resize_ok hl hw
      · subst h1; subst h2
        refine ⟨ps, ops, [], hi.run, by rw [envOps_snoc]; simpa [envOf] using hi.order, ?_, List.nil_suffix, ?_⟩
        · rw [accepted_snoc, ← hi.bytes, hr, h3]; simp [took]
        · intro v hv; cases hv; exact ⟨rfl, Nat.zero_le _⟩
      · exact ⟨_, _, _, flushed _ _ _ _ _ rfl h2 rfl rfl (by intro w' hw'; cases hw'; rw [h1])⟩
    | resizeFails hc hw =>
      obtain ⟨h1, h2⟩ := resize_error hw
      subst h1; subst h2
      exact ⟨ps, ops, rest, keep _ _ rfl rfl rfl rfl fun w hw => hw⟩
    | @drop w db₁ now tid r w' db' hw =>
      cases r with
      | ok u => exact ⟨_, _, _, flushed _ _ _ _ _ rfl (flush_ok hw).1 rfl rfl (by intro w' hw'; cases hw')⟩
      | error e =>
        obtain ⟨h1, h2⟩ := flush_error hw
        subst h1; subst h2
        exact ⟨ps, ops, rest, keep _ _ rfl rfl rfl rfl fun w hw => by cases hw⟩
    | @env w db₁ eops db' hr =>
      refine ⟨ps, ops ++ eops, rest, run_trans hi.run hr, ?_, ?_, ?_, ?_⟩
      · rw [envOps_snoc]; exact interleaved_others hi.order _
      · rw [accepted_snoc]; simpa [took] using hi.bytes
      · rw [unflushed_snoc]; simpa [took, Ev.flushes] using hi.bound
      · exact hi.held

/-- **C77** (blocking): whatever is called in whatever order and whatever others do at the same time, also with
errors, the database has executed appends of consecutive pieces of the accepted bytes, once and in order, between
the operations of others; what is still missing was accepted after the last successful flush. -/
theorem C77_writer (s : Schema) (cfg : Cfg) (fid : Nat) (hf : fid < 2 ^ 32) (db : Db) (es : List Ev) (σ : WState)
    (h : WExec s cfg fid ⟨some .new, db⟩ es σ) :
    ∃ ps ops rest, Run s cfg db ops σ.db ∧ Interleaved fid ps (envOps es) ops ∧
      ps.flatten ++ rest = accepted es ∧ rest <:+ unflushed es := by
  obtain ⟨ps, ops, rest, hi⟩ := winv hf h
  exact ⟨ps, ops, rest, hi.run, hi.order, hi.bytes, hi.bound⟩

/-- Operations elsewhere and own appends: what the file contains. -/
theorem possible_interleaved {size : Nat} {ps : List Bytes} {env ops : List FOp} (hi : Interleaved fid ps env ops) :
    ∀ {b b' : Bytes}, (∀ o ∈ env, Elsewhere fid o) → Possible size fid b ops b' → b' = b ++ ps.flatten := by
  induction hi with
  | nil =>
    intro b b' _ hp
    generalize hl : ([] : List FOp) = l at hp
    cases hp with
    | nil => simp
    | snoc h he => simp at hl
  | @mine ps env ops p hi ih =>
    intro b b' ho hp
    generalize hl : ops ++ [FOp.append fid p] = l at hp
    cases hp with
    | nil => simp at hl
    | @snoc ops' b₁ op _ h he =>
      obtain ⟨h1, h2⟩ := List.append_inj' hl rfl
      cases h2
      subst h1
      have := ih ho h
      simp only [Effect, if_true] at he
      rw [he, this]
      simp
  | @other ps env ops o hi ih =>
    intro b b' ho hp
    generalize hl : ops ++ [o] = l at hp
    cases hp with
    | nil => simp at hl
    | @snoc ops' b₁ op _ h he =>
      obtain ⟨h1, h2⟩ := List.append_inj' hl rfl
      cases h2
      subst h1
      have := ih (fun o ho' => ho o (by simp [ho'])) h
      have hel := ho o (by simp)
      have : b' = b₁ := by
        cases o with
        | append g d => simpa only [Effect, if_neg (show ¬ g = fid from hel)] using he
        | truncate g n f => simpa only [Effect, if_neg (show ¬ g = fid from hel)] using he
      rw [this]
      assumption

/-- **C77** (blocking): while nobody else writes the file, it contains what it contained before and the accepted
bytes, except for a tail that was accepted after the last successful flush. -/
theorem C77_contents (s : Schema) (cfg : Cfg) (hs : HasFiles s cfg) (hz : 0 < cfg.size) (fid : Nat) (hf : fid < 2 ^ 32)
    (db : Db) (hwf : BlocksWF cfg (db.trees.docs cfg.blocks)) (es : List Ev) (σ : WState)
    (h : WExec s cfg fid ⟨some .new, db⟩ es σ) (hothers : ∀ o ∈ envOps es, Elsewhere fid o) :
    ∃ rest, contents cfg σ.db fid ++ rest = contents cfg db fid ++ accepted es ∧ rest <:+ unflushed es := by
  obtain ⟨ps, ops, rest, h1, h2, h3, h4⟩ := C77_writer s cfg fid hf db es σ h
  have := possible_interleaved h2 hothers ((C50_history s cfg hs hz db σ.db ops hwf h1).2 fid)
  exact ⟨rest, by rw [this, ← h3]; simp, h4⟩

/-- **C77** (blocking): after a flush that succeeded, everything accepted so far is in the file. -/
theorem C77_flushed (s : Schema) (cfg : Cfg) (hs : HasFiles s cfg) (hz : 0 < cfg.size) (fid : Nat) (hf : fid < 2 ^ 32)
    (db : Db) (hwf : BlocksWF cfg (db.trees.docs cfg.blocks)) (es : List Ev) (e : Ev) (he : e = .flushed ∨ e = .resized)
    (σ : WState) (h : WExec s cfg fid ⟨some .new, db⟩ (es ++ [e]) σ) (hothers : ∀ o ∈ envOps es, Elsewhere fid o) :
    contents cfg σ.db fid = contents cfg db fid ++ accepted es := by
  obtain ⟨rest, h1, h2⟩ := C77_contents s cfg hs hz fid hf db hwf _ σ h (by
    rw [envOps_snoc]; rcases he with rfl | rfl <;> simpa [envOf] using hothers)
  have : unflushed (es ++ [e]) = [] := by rw [unflushed_snoc]; rcases he with rfl | rfl <;> rfl
  rw [this] at h2
  have hr : rest = [] := List.suffix_nil.mp h2
  subst hr
  rw [accepted_snoc] at h1
  rcases he with rfl | rfl <;> simpa [took] using h1

/-- **C77** (blocking): dropping a writer appends what is left, if the file still exists (and there are block ids
left). -/
theorem C77_dropped (s : Schema) (cfg : Cfg) (hs : HasFiles s cfg) (hz : 0 < cfg.size) (fid : Nat) (hf : fid < 2 ^ 32)
    (db : Db) (hwf : BlocksWF cfg (db.trees.docs cfg.blocks)) (es : List Ev) (σ σ' : WState)
    (h : WExec s cfg fid ⟨some .new, db⟩ es σ) (hothers : ∀ o ∈ envOps es, Elsewhere fid o)
    (hfile : getDoc σ.db cfg.files (toBE 4 fid) ≠ none)
    (hids : ∀ id, getDoc σ.db cfg.blocks id ≠ none → fromBE id + (accepted es).length < 2 ^ 64)
    (hlen : (accepted es).length < 2 ^ 64)
    (hd : WStep s cfg fid σ .dropped σ') :
    contents cfg σ'.db fid = contents cfg db fid ++ accepted es ∧ σ'.w = none := by
  obtain ⟨ps, ops, rest, hi⟩ := winv hf h
  have hr := C50_history s cfg hs hz db σ.db ops hwf hi.run
  have hc := possible_interleaved hi.order hothers (hr.2 fid)
  cases hd with
  | @drop w db₁ now tid r w' db' hw =>
    obtain ⟨hb, -⟩ := hi.held w rfl
    refine ⟨?_, rfl⟩
    have hle : w.buf.length ≤ (accepted es).length := by rw [← hi.bytes, hb]; simp
    have hok := (C50_append_succeeds s cfg hs hz db₁ hr.1 w.buf fid now tid (fun id hid => by have := hids id hid; omega)
      (by omega)).1.mpr (.inr hfile)
    cases r with
    | error e =>
      unfold Buffered.flush at hw
      generalize append s cfg w.buf fid now tid db₁ = r at hw hok
      obtain ⟨r, d⟩ := r
      simp only at hok
      subst hok
      cases hw
    | ok u =>
      have := (C50_append s cfg hs hz _ _ hr.1 _ fid hf _ _ (flush_ok hw).1).1
      show contents cfg db' fid = _
      rw [this, hc, ← hi.bytes, hb]
      simp

/-- The pieces of one side of a shared file. -/
def piecesOf (mine : Bool) (l : List (Bool × Bytes)) : Bytes := (l.filter (·.1 == mine)).flatMap (·.2)

/-- What the appends among some operations add to the file. -/
def appendedBy (fid : Nat) (ops : List FOp) : Bytes := ops.flatMap fun
  | .append g d => if g = fid then d else []
  | .truncate _ _ _ => []

/-- The operation is an append, or elsewhere. -/
def OnlyAppends (fid : Nat) : FOp → Prop
  | .append _ _ => True
  | .truncate g _ _ => g ≠ fid

theorem possible_shared {size : Nat} {ps : List Bytes} {env ops : List FOp} (hi : Interleaved fid ps env ops) :
    ∀ {b b' : Bytes}, (∀ o ∈ env, OnlyAppends fid o) → Possible size fid b ops b' →
      ∃ l : List (Bool × Bytes), b' = b ++ l.flatMap (·.2) ∧ piecesOf true l = ps.flatten ∧
        piecesOf false l = appendedBy fid env := by
  induction hi with
  | nil =>
    intro b b' _ hp
    generalize hl : ([] : List FOp) = l at hp
    cases hp with
    | nil => exact ⟨[], by simp, rfl, rfl⟩
    | snoc h he => simp at hl
  | @mine ps env ops p hi ih =>
    intro b b' ho hp
    generalize hl : ops ++ [FOp.append fid p] = l at hp
    cases hp with
    | nil => simp at hl
    | @snoc ops' b₁ op _ h he =>
      obtain ⟨h1, h2⟩ := List.append_inj' hl rfl
      cases h2
      subst h1
      obtain ⟨l, h1, h2, h3⟩ := ih ho h
      simp only [Effect, if_true] at he
      refine ⟨l ++ [(true, p)], by rw [he, h1]; simp, ?_, ?_⟩
      · simp only [piecesOf, List.filter_append, List.flatMap_append] at h2 ⊢
        rw [h2]; simp
      · simp only [piecesOf, List.filter_append, List.flatMap_append] at h3 ⊢
        rw [h3]; simp
  | @other ps env ops o hi ih =>
    intro b b' ho hp
    generalize hl : ops ++ [o] = l at hp
    cases hp with
    | nil => simp at hl
    | @snoc ops' b₁ op _ h he =>
      obtain ⟨h1, h2⟩ := List.append_inj' hl rfl
      cases h2
      subst h1
      obtain ⟨l, h1, h2, h3⟩ := ih (fun o ho' => ho o (by simp [ho'])) h
      have hel := ho o (by simp)
      have hb : b' = b₁ ++ appendedBy fid [o] := by
        cases o with
        | append g d =>
          by_cases hg : g = fid
          · simp only [Effect, if_pos hg] at he; simp [appendedBy, hg, he]
          · simp only [Effect, if_neg hg] at he; simp [appendedBy, hg, he]
        | truncate g n f =>
          simp only [Effect, if_neg (show ¬ g = fid from hel)] at he
          simp [appendedBy, he]
      refine ⟨l ++ [(false, appendedBy fid [o])], by rw [hb, h1]; simp, ?_, ?_⟩
      · simp only [piecesOf, List.filter_append, List.flatMap_append] at h2 ⊢
        rw [h2]; simp
      · simp only [piecesOf, List.filter_append, List.flatMap_append] at h3 ⊢
        rw [h3]; simp [appendedBy]

/-- **C77** (blocking): when others append to the same file at the same time (for example other writers), the file
grows by the pieces of both, each in its own order. -/
theorem C77_shared_file (s : Schema) (cfg : Cfg) (hs : HasFiles s cfg) (hz : 0 < cfg.size) (fid : Nat) (hf : fid < 2 ^ 32)
    (db : Db) (hwf : BlocksWF cfg (db.trees.docs cfg.blocks)) (es : List Ev) (σ : WState)
    (h : WExec s cfg fid ⟨some .new, db⟩ es σ) (hothers : ∀ o ∈ envOps es, OnlyAppends fid o) :
    ∃ (l : List (Bool × Bytes)) (rest : Bytes), contents cfg σ.db fid = contents cfg db fid ++ l.flatMap (·.2) ∧
      piecesOf true l ++ rest = accepted es ∧ rest <:+ unflushed es ∧
      piecesOf false l = appendedBy fid (envOps es) := by
  obtain ⟨ps, ops, rest, h1, h2, h3, h4⟩ := C77_writer s cfg fid hf db es σ h
  obtain ⟨l, h5, h6, h7⟩ := possible_shared h2 hothers ((C50_history s cfg hs hz db σ.db ops hwf h1).2 fid)
  exact ⟨l, rest, h5, by rw [h6]; exact h3, h4, h7⟩

/-! ## `write_all` -/

/-- A writer as its calls leave it. -/
def Buffered.Fits (w : Buffered) : Prop := w.buf.length ≤ w.cap

/-- The next `write` finds room: the buffer has a capacity, or the default capacity is not 0. -/
def Buffered.Roomy (cfg : Cfg) (w : Buffered) : Prop := 0 < w.cap ∨ cfg.size ≤ 1024 * 1024

theorem defaultCapacity_pos {cfg : Cfg} (hz : 0 < cfg.size) : 0 < defaultCapacity cfg ↔ cfg.size ≤ 1024 * 1024 := by
  unfold defaultCapacity
  constructor
  · intro h
    have h1 := Nat.div_mul_le_self (1024 * 1024) cfg.size
    by_cases hc : cfg.size ≤ 1024 * 1024
    · exact hc
    · rw [Nat.div_eq_of_lt (by omega)] at h; omega
  · intro h
    have := Nat.div_pos h hz
    exact Nat.mul_pos this hz

/-- **C77**: the default capacity is the largest multiple of the block size up to a megabyte. -/
theorem C77_default_capacity (cfg : Cfg) (hz : 0 < cfg.size) :
    cfg.size ∣ defaultCapacity cfg ∧ defaultCapacity cfg ≤ 1024 * 1024 ∧
    ∀ m, cfg.size ∣ m → m ≤ 1024 * 1024 → m ≤ defaultCapacity cfg := by
  unfold defaultCapacity
  refine ⟨⟨_, Nat.mul_comm _ _⟩, Nat.div_mul_le_self _ _, ?_⟩
  rintro m ⟨k, rfl⟩ hm
  have : k ≤ 1024 * 1024 / cfg.size := (Nat.le_div_iff_mul_le hz).mpr (by rw [Nat.mul_comm]; exact hm)
  rw [Nat.mul_comm]
  exact Nat.mul_le_mul_right _ this

theorem write_progress {w w' : Buffered} {c now tid data db db' n} (hz : 0 < cfg.size) (hw : w.Fits) (hr : w.Roomy cfg)
    (hc : Alloc (defaultCapacity cfg) c) (hd : data ≠ [])
    (h : w.write s cfg fid c now tid data db = (.ok n, w', db')) : 0 < n ∧ n ≤ data.length ∧ w'.Roomy cfg := by
  unfold Buffered.Fits at hw
  unfold Buffered.write at h
  split at h
  · rename_i h0
    rw [if_neg (by omega)] at h
    cases h
    have hpos : 0 < c := by
      have := (defaultCapacity_pos hz).mpr (hr.resolve_left (by omega))
      have := hc.1
      omega
    have hp := put_spec { w with cap := c } data (by show w.buf.length ≤ c; omega)
    exact ⟨hp.2.2.2.2 hd (by show w.buf.length < c; omega), hp.2.2.2.1, .inl (by rw [hp.2.1]; exact hpos)⟩
  · split at h
    · generalize hf : w.flush s cfg fid now tid db = r at h
      obtain ⟨r, v, d⟩ := r
      cases r with
      | error e => cases h
      | ok u =>
        cases h
        obtain ⟨-, h2⟩ := flush_ok hf
        subst h2
        have hp := put_spec { w with buf := [] } data (by simp)
        exact ⟨hp.2.2.2.2 hd (by simp; omega), hp.2.2.2.1, .inl (by rw [hp.2.1]; show 0 < w.cap; omega)⟩
    · cases h
      have hp := put_spec w data hw
      exact ⟨hp.2.2.2.2 hd (by omega), hp.2.2.2.1, .inl (by rw [hp.2.1]; omega)⟩

/-- **C77**: `write` takes at least a byte when it succeeds, unless the blocks are larger than a megabyte and the
buffer size was not set. -/
theorem C77_write_takes_something_partial (s : Schema) (cfg : Cfg) (hz : 0 < cfg.size) (fid : Nat) (hf : fid < 2 ^ 32) (db : Db)
    (es : List Ev) (w : Buffered) (db₁ : Db) (h : WExec s cfg fid ⟨some .new, db⟩ es ⟨some w, db₁⟩)
    (hsize : cfg.size ≤ 1024 * 1024) (data : Bytes) (hd : data ≠ []) (n : Nat) (σ : WState)
    (hw : WStep s cfg fid ⟨some w, db₁⟩ (.wrote data n) σ) : 0 < n ∧ n ≤ data.length := by
  obtain ⟨ps, ops, rest, hi⟩ := winv hf h
  cases hw with
  | write hc hw =>
    have := write_progress hz (hi.held w rfl).2 (.inr hsize) hc hd hw
    exact ⟨this.1, this.2.1⟩

/-- `write_all` is a sequence of `write`s that takes all the data when it succeeds. -/
theorem writeAll_exec {w db data r w' db'} (h : WriteAll s cfg fid w db data r w' db') :
    ∃ es, WExec s cfg fid ⟨some w, db⟩ es ⟨some w', db'⟩ ∧ accepted es <+: data ∧ (r = .ok () → accepted es = data) ∧
      envOps es = [] ∧ unflushed es = accepted es := by
  have cons : ∀ {σ σ₁ σ₂ : WState} {e : Ev} {es : List Ev}, WStep s cfg fid σ e σ₁ → WExec s cfg fid σ₁ es σ₂ →
      WExec s cfg fid σ (e :: es) σ₂ := by
    intro σ σ₁ σ₂ e es hs h
    induction h with
    | nil => exact .snoc (.nil _) hs
    | snoc _ hs' ih => exact .snoc ih hs'
  have fold : ∀ (es : List Ev) (acc : Bytes), (∀ e ∈ es, e.flushes = false) →
      es.foldl (fun acc e => if e.flushes then [] else acc ++ took e) acc = acc ++ accepted es := by
    intro es
    induction es with
    | nil => intro acc _; simp [accepted]
    | cons e es ih =>
      intro acc hall
      rw [List.foldl_cons, ih _ fun e he => hall e (by simp [he]), hall e (by simp)]
      simp [accepted]
  suffices ∃ es, WExec s cfg fid ⟨some w, db⟩ es ⟨some w', db'⟩ ∧ accepted es <+: data ∧
      (r = .ok () → accepted es = data) ∧ envOps es = [] ∧ ∀ e ∈ es, e.flushes = false by
    obtain ⟨es, h1, h2, h3, h4, h5⟩ := this
    exact ⟨es, h1, h2, h3, h4, by unfold unflushed; rw [fold es [] h5]; rfl⟩
  induction h with
  | done w db => exact ⟨[], .nil _, List.prefix_refl _, fun _ => rfl, rfl, by simp⟩
  | fails hd hc h =>
    exact ⟨_, .snoc (.nil _) (.writeFails hc h), by simp [accepted, took], (fun h => by cases h), rfl,
      by simp [Ev.flushes]⟩
  | zero hd hc h =>
    exact ⟨_, .snoc (.nil _) (.write hc h), by simp [accepted, took], (fun h => by cases h), rfl,
      by simp [Ev.flushes]⟩
  | @more w db data c now tid n w' db' r w'' db'' hd hc h hn hr ih =>
    obtain ⟨es, h1, h2, h3, h4, h5⟩ := ih
    have hacc : accepted (.wrote data n :: es) = data.take n ++ accepted es := by simp [accepted, took]
    refine ⟨.wrote data n :: es, cons (.write hc h) h1, ?_, ?_, ?_, ?_⟩
    · rw [hacc]
      obtain ⟨t, ht⟩ := h2
      exact ⟨t, by rw [List.append_assoc, ht, List.take_append_drop]⟩
    · intro hr; rw [hacc, h3 hr, List.take_append_drop]
    · simpa [envOps, envOf] using h4
    · intro e he
      rcases List.mem_cons.mp he with rfl | he
      · rfl
      · exact h5 e he

/-- Wherever the file exists and has block ids left for `n` more bytes. -/
def CanGrow (cfg : Cfg) (fid : Nat) (db : Db) (n : Nat) : Prop :=
  getDoc db cfg.files (toBE 4 fid) ≠ none ∧ n < 2 ^ 64 ∧ ∀ id, getDoc db cfg.blocks id ≠ none → fromBE id + n < 2 ^ 64

theorem chunks_length_le {n : Nat} (hn : 0 < n) (data : Bytes) : (chunks n data).length ≤ data.length := by
  have h1 := chunks_flatten hn data
  have h2 := chunks_sizes hn data
  generalize chunks n data = cs at h1 h2
  subst h1
  induction cs with
  | nil => simp
  | cons c cs ih =>
    have := List.length_pos_iff.mpr (h2 c (by simp)).1
    have := ih fun c hc => h2 c (by simp [hc])
    simp only [List.length_cons, List.flatten_cons, List.length_append]
    omega

theorem append_grows (hs : HasFiles s cfg) (hz : 0 < cfg.size) {db : Db} (hwf : BlocksWF cfg (db.trees.docs cfg.blocks))
    {b : Bytes} {m : Nat} (hg : CanGrow cfg fid db (b.length + m)) (hf : fid < 2 ^ 32) (now : BitVec 64) (tid : Nat) :
    ∃ db', append s cfg b fid now tid db = (.ok (), db') ∧ CanGrow cfg fid db' m ∧
      BlocksWF cfg (db'.trees.docs cfg.blocks) := by
  obtain ⟨n, hn⟩ := idsTo_of_wf hwf
  obtain ⟨g1, g2, g3⟩ := hg
  have hcl := chunks_length_le hz b
  have hbound : n + b.length + m < 2 ^ 64 := by
    rcases hn.2.2 with ⟨_, rfl⟩ | hl
    · omega
    · have := g3 (toBE 8 n) (by
        have := (OMap.lastKey_some hl).1
        unfold getDoc
        intro h; rw [h] at this; cases this)
      rw [fromBE_toBE (by have := hn.1; omega)] at this
      omega
  rcases append_cases hs hz b fid now tid db hn with ⟨hd, he⟩ | ⟨hd, hf, he⟩ | ⟨_, _, hb, e, he⟩ | ⟨hd, _, _, d', he, h1, h2⟩
  · exact ⟨db, he, ⟨g1, by omega, fun id hid => by have := g3 id hid; omega⟩, hwf⟩
  · exact absurd hf g1
  · exact absurd (by omega) hb
  · refine ⟨d', he, ⟨?_, by omega, ?_⟩, (C50_append s cfg hs hz db d' hwf b fid hf now tid he).2.2.1⟩
    · unfold getDoc at g1 ⊢
      rw [h2 _ hs.apart]
      exact g1
    · intro id hid
      unfold getDoc at hid
      cases hgd : (d'.trees.docs cfg.blocks).get id with
      | none => exact absurd hgd hid
      | some d =>
        have hm := OMap.mem_list_iff.mpr hgd
        rw [h1, List.mem_append] at hm
        rcases hm with hm | hm
        · have := g3 id (by unfold getDoc; rw [OMap.mem_list_iff.mp hm]; simp)
          omega
        · obtain ⟨i, _, -, hi, -, hid'⟩ := newBlocks_mem hm
          cases hid'
          rw [fromBE_toBE (by omega)]
          omega

/-- One `write` of a file that can grow. -/
theorem write_grows (hs : HasFiles s cfg) (hz : 0 < cfg.size) (hf : fid < 2 ^ 32) {w : Buffered} {db : Db}
    (hwf : BlocksWF cfg (db.trees.docs cfg.blocks)) (hw : w.Fits) {data : Bytes} {m : Nat}
    (hg : CanGrow cfg fid db (w.buf.length + m)) (c : Nat) (now : BitVec 64) (tid : Nat) :
    ∃ n w' db', w.write s cfg fid c now tid data db = (.ok n, w', db') ∧ n ≤ data.length ∧ w'.Fits ∧
      BlocksWF cfg (db'.trees.docs cfg.blocks) ∧ (n ≤ m → CanGrow cfg fid db' (w'.buf.length + (m - n))) := by
  have weaken : ∀ {db : Db} {a b : Nat}, b ≤ a → CanGrow cfg fid db a → CanGrow cfg fid db b :=
    fun hle h => ⟨h.1, by have := h.2.1; omega, fun id hid => by have := h.2.2 id hid; omega⟩
  unfold Buffered.Fits at hw ⊢
  unfold Buffered.write
  have len : ∀ (v : Buffered), v.buf.length ≤ v.cap → (v.put data).2.buf.length = v.buf.length + (v.put data).1 := by
    intro v hv
    have hp := put_spec v data hv
    rw [hp.1, List.length_append, List.length_take, Nat.min_eq_left hp.2.2.2.1]
  by_cases h0 : w.cap = 0
  · rw [if_pos h0, if_neg (by omega)]
    have hl : ({ w with cap := c } : Buffered).buf.length ≤ ({ w with cap := c } : Buffered).cap := by
      show w.buf.length ≤ c; omega
    have hp := put_spec { w with cap := c } data hl
    refine ⟨_, _, _, rfl, hp.2.2.2.1, by rw [hp.2.1]; exact hp.2.2.1, hwf, fun hn => ?_⟩
    rw [len _ hl]
    exact weaken (by show w.buf.length + _ + _ ≤ _; omega) hg
  · rw [if_neg h0]
    by_cases h1 : w.cap = w.buf.length
    · rw [if_pos h1]
      obtain ⟨db', ha, hg', hwf'⟩ := append_grows hs hz hwf hg hf now tid
      have hfl : w.flush s cfg fid now tid db = (.ok (), { w with buf := [] }, db') := by
        unfold Buffered.flush; rw [ha]
      rw [hfl]
      have hl : ({ w with buf := [] } : Buffered).buf.length ≤ ({ w with buf := [] } : Buffered).cap := Nat.zero_le _
      have hp := put_spec { w with buf := [] } data hl
      refine ⟨_, _, _, rfl, hp.2.2.2.1, by rw [hp.2.1]; exact hp.2.2.1, hwf', fun hn => ?_⟩
      rw [len _ hl]
      exact weaken (by show 0 + _ + _ ≤ _; omega) hg'
    · rw [if_neg h1]
      have hp := put_spec w data hw
      refine ⟨_, _, _, rfl, hp.2.2.2.1, by rw [hp.2.1]; exact hp.2.2.1, hwf, fun hn => ?_⟩
      rw [len _ hw]
      exact weaken (by omega) hg

theorem writeAll_ok (hs : HasFiles s cfg) (hz : 0 < cfg.size) (hf : fid < 2 ^ 32) {w w' : Buffered} {db db' : Db} {data : Bytes}
    {r : Except (Option Err) Unit} (h : WriteAll s cfg fid w db data r w' db') :
    BlocksWF cfg (db.trees.docs cfg.blocks) → w.Fits → w.Roomy cfg → CanGrow cfg fid db (w.buf.length + data.length) →
    r = .ok () := by
  induction h with
  | done => intros; rfl
  | @fails w db data c now tid e w' db' hd hc h =>
    intro hwf hw hr hg
    obtain ⟨n, w'', db'', he, -⟩ := write_grows hs hz hf hwf hw (data := data) hg c now tid
    rw [he] at h; cases h
  | zero hd hc h =>
    intro hwf hw hr hg
    have := (write_progress hz hw hr hc hd h).1
    omega
  | @more w db data c now tid n w₁ db₁ r w₂ db₂ hd hc h hn hrest ih =>
    intro hwf hw hr hg
    obtain ⟨n', w'', db'', he, h1, h2, h3, h4⟩ := write_grows hs hz hf hwf hw (data := data) hg c now tid
    rw [h] at he
    cases he
    refine ih h3 h2 (write_progress hz hw hr hc hd h).2.2 ?_
    rw [List.length_drop]
    exact h4 h1

/-- `write_all` ends, with any answers of the allocator and the clock. -/
theorem writeAll_total {w : Buffered} {db : Db} (data : Bytes) :
    ∃ r w' db', WriteAll s cfg fid w db data r w' db' := by
  generalize hn : data.length = k
  induction k using Nat.strongRecOn generalizing w db data with
  | _ k ih =>
    by_cases hd : data = []
    · subst hd; exact ⟨_, _, _, .done _ _⟩
    · have hc : Alloc (defaultCapacity cfg) (defaultCapacity cfg) := ⟨Nat.le_refl _, id⟩
      generalize hw : w.write s cfg fid (defaultCapacity cfg) 0 0 data db = x
      obtain ⟨r, w', db'⟩ := x
      cases r with
      | error e => exact ⟨_, _, _, .fails hd hc hw⟩
      | ok n =>
        by_cases h0 : n = 0
        · subst h0; exact ⟨_, _, _, .zero hd hc hw⟩
        · have := List.length_pos_iff.mpr hd
          obtain ⟨r, w'', db'', hr⟩ := ih (data.drop n).length (by rw [List.length_drop]; omega) (w := w') (db := db')
            (data.drop n) rfl
          exact ⟨r, w'', db'', .more hd hc hw h0 hr⟩

/-- **C77**: as long as the file exists (and block ids are left), `write_all` takes all the data; then it is
followed by a flush or a drop, and the file has it.  Blocks of up to a megabyte, or a buffer size set before. -/
theorem C77_write_all_partial (s : Schema) (cfg : Cfg) (hs : HasFiles s cfg) (hz : 0 < cfg.size) (hsize : cfg.size ≤ 1024 * 1024)
    (fid : Nat) (hf : fid < 2 ^ 32) (db : Db) (hwf : BlocksWF cfg (db.trees.docs cfg.blocks)) (es : List Ev) (w : Buffered)
    (db₁ : Db) (h : WExec s cfg fid ⟨some .new, db⟩ es ⟨some w, db₁⟩) (data : Bytes)
    (hg : CanGrow cfg fid db₁ ((unflushed es).length + data.length)) :
    (∃ r w' db', WriteAll s cfg fid w db₁ data r w' db') ∧
    ∀ r w' db', WriteAll s cfg fid w db₁ data r w' db' → r = .ok () ∧
      ∃ es', WExec s cfg fid ⟨some .new, db⟩ (es ++ es') ⟨some w', db'⟩ ∧ accepted es' = data ∧ envOps es' = [] := by
  obtain ⟨ps, ops, rest, hi⟩ := winv hf h
  have hr := C50_history s cfg hs hz db db₁ ops hwf hi.run
  obtain ⟨hb, hl⟩ := hi.held w rfl
  refine ⟨writeAll_total data, fun r w' db' hw => ?_⟩
  have hle : w.buf.length ≤ (unflushed es).length := by rw [← hb]; exact hi.bound.length_le
  have hok := writeAll_ok hs hz hf hw hr.1 hl (.inr hsize)
    ⟨hg.1, by have := hg.2.1; omega, fun id hid => by have := hg.2.2 id hid; omega⟩
  obtain ⟨es', h1, -, h2, h3, -⟩ := writeAll_exec hw
  refine ⟨hok, es', ?_, h2 hok, h3⟩
  clear hw hok h2 h3
  exact wexec_trans h h1

/-- **C77 is violated** for blocks larger than a megabyte: the default buffer has no capacity, `write` takes nothing
from any data and `write_all` fails, in every state of the file. -/
theorem C77_violated_large_blocks (s : Schema) (cfg : Cfg) (fid : Nat) (hsize : 1024 * 1024 < cfg.size) (db : Db)
    (data : Bytes) (hd : data ≠ []) :
    (∀ e σ, WStep s cfg fid ⟨some .new, db⟩ e σ → (∀ n, e = .wrote data n → n = 0 ∧ σ = ⟨some .new, db⟩) ∧
      ∀ x, e ≠ .writeFailed data x) ∧
    ∀ r w' db', WriteAll s cfg fid .new db data r w' db' → r = .error none := by
  have hdef : defaultCapacity cfg = 0 := by
    unfold defaultCapacity; rw [Nat.div_eq_of_lt hsize, Nat.zero_mul]
  have hwrite : ∀ c now tid, Alloc (defaultCapacity cfg) c →
      Buffered.write s cfg fid c now tid .new data db = (.ok 0, .new, db) := by
    intro c now tid hc
    have : c = 0 := hc.2 hdef
    subst this
    unfold Buffered.write
    rw [if_pos (show Buffered.new.cap = 0 from rfl), if_neg (by omega)]
    simp [Buffered.put, Buffered.new, hd]
  constructor
  · intro e σ h
    cases h with
    | write hc h =>
      refine ⟨fun n hn => ?_, fun x hx => (by cases hx)⟩
      cases hn
      rw [hwrite _ _ _ hc] at h
      cases h
      exact ⟨rfl, rfl⟩
    | writeFails hc h =>
      refine ⟨fun n hn => (by cases hn), fun x hx => ?_⟩
      cases hx
      rw [hwrite _ _ _ hc] at h
      cases h
    | _ => exact ⟨fun n hn => (by cases hn), fun x hx => (by cases hx)⟩
  · intro r w' db' h
    cases h with
    | done => exact absurd rfl hd
    | fails _ hc h => rw [hwrite _ _ _ hc] at h; cases h
    | zero => rfl
    | more _ hc h hn => rw [hwrite _ _ _ hc] at h; cases h; exact absurd rfl hn

end Bonsai.Files
