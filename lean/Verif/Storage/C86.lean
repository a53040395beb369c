import Verif.Storage.Lock

/-!
# C86 — a storage is open once at a time, with the same id every time
-/
set_option linter.unusedVariables false
set_option linter.unusedSimpArgs false

namespace Bonsai.Lock

open Bonsai.Time

/-! ## Specification -/

/-- The opening can change the data: it is open, or keys of it are being persisted. -/
def Proc.CanWrite (p : Proc) : Prop :=
  (∃ n, p.stage = .running n) ∨ (∃ n, p.stage = .closing n) ∧ ∃ c ∈ p.ctxs, c.kept = true ∨ c.persisting = true

/-! ## One at a time -/

/-- The opening is in possession of the lock. -/
def Stage.holds : Stage → Bool
  | .locked _ => true
  | .running _ => true
  | .closing _ => true
  | _ => false

/-- The invariant. -/
structure LockInv (w : World) : Prop where
  holds : ∀ (i : Nat) (p : Proc), w.procs[i]? = some p → p.stage.holds = true → w.holder = some i
  workers : ∀ (i : Nat) (p : Proc) (c : Ctx), w.procs[i]? = some p → c ∈ p.ctxs → c.kept = true ∨ c.persisting = true →
    c.worker = true

theorem get_put {w : World} {i j : Nat} {p q r : Proc} (hi : w.procs[i]? = some r) (h : (w.put i p).procs[j]? = some q) :
    (j = i ∧ q = p) ∨ (j ≠ i ∧ w.procs[j]? = some q) := by
  have hlt : i < w.procs.length := (List.getElem?_eq_some_iff.1 hi).1
  by_cases hij : i = j
  · subst hij
    simp only [World.put, List.getElem?_set, hlt, if_true, Option.some.injEq] at h
    exact Or.inl ⟨rfl, h.symm⟩
  · simp only [World.put, List.getElem?_set_ne hij] at h
    exact Or.inr ⟨fun e => hij e.symm, h⟩

/-- A step of one opening that keeps its databases. -/
theorem lockInv_put {w w₁ : World} {i : Nat} {p p' : Proc} (h : LockInv w) (hi : w.procs[i]? = some p)
    (hp : w₁.procs = w.procs) (hc : p'.ctxs = p.ctxs)
    (hs : p'.stage.holds = true → w₁.holder = some i)
    (ho : ∀ j, j ≠ i → w.holder = some j → w₁.holder = some j) :
    LockInv (w₁.put i p') := by
  have hi' : w₁.procs[i]? = some p := by rw [hp]; exact hi
  constructor
  · intro j q hj hh
    rcases get_put hi' hj with ⟨rfl, rfl⟩ | ⟨hne, hj'⟩
    · exact hs hh
    · rw [hp] at hj'
      exact ho j hne (h.holds j q hj' hh)
  · intro j q c hj hm hk
    rcases get_put hi' hj with ⟨rfl, rfl⟩ | ⟨hne, hj'⟩
    · rw [hc] at hm
      exact h.workers _ p c hi hm hk
    · rw [hp] at hj'
      exact h.workers j q c hj' hm hk

/-- A step of one database. -/
theorem lockInv_ctx {w : World} {i k : Nat} {p : Proc} {c c' : Ctx} (h : LockInv w) (hi : w.procs[i]? = some p)
    (hk : p.ctxs[k]? = some c) (hw : c'.kept = true ∨ c'.persisting = true → c'.worker = true) :
    LockInv (w.put i { p with ctxs := p.ctxs.set k c' }) := by
  constructor
  · intro j q hj hh
    rcases get_put hi hj with ⟨rfl, rfl⟩ | ⟨hne, hj'⟩
    · exact h.holds _ p hi hh
    · exact h.holds j q hj' hh
  · intro j q d hj hm hd
    rcases get_put hi hj with ⟨rfl, rfl⟩ | ⟨hne, hj'⟩
    · rcases List.mem_or_eq_of_mem_set hm with hm | hm
      · exact h.workers _ p d hi hm hd
      · subst hm; exact hw hd
    · exact h.workers j q d hj' hm hd

theorem lockInv_step {w w' : World} (h : LockInv w) (hs : Step w w') : LockInv w' := by
  cases hs with
  | start cfg draw h1 h2 =>
    have key : ∀ (j : Nat) (q : Proc), (w.procs ++ [(⟨cfg, draw, .check, []⟩ : Proc)])[j]? = some q →
        w.procs[j]? = some q ∨ q = ⟨cfg, draw, .check, []⟩ := by
      intro j q hj
      by_cases hlt : j < w.procs.length
      · rw [List.getElem?_append_left hlt] at hj; exact Or.inl hj
      · have hle := (List.getElem?_eq_some_iff.1 hj).1
        simp only [List.length_append, List.length_singleton] at hle
        have : j = w.procs.length := by omega
        subst this
        simp only [List.getElem?_append_right (Nat.le_refl _), Nat.sub_self, List.getElem?_cons_zero,
          Option.some.injEq] at hj
        exact Or.inr hj.symm
    constructor
    · intro j q hj hh
      rcases key j q hj with h' | rfl
      · exact h.holds j q h' hh
      · cases hh
    · intro j q c hj hm hk
      rcases key j q hj with h' | rfl
      · exact h.workers j q c h' hm hk
      · cases hm
  | @look i p hi hst => exact lockInv_put h hi rfl rfl (by dsimp; split <;> simp [Stage.holds]) (fun _ _ h => h)
  | @openFile i p hi hst => exact lockInv_put h hi rfl rfl (by simp [Stage.holds]) (fun _ _ h => h)
  | @create i p hi hst => exact lockInv_put h hi rfl rfl (by simp [Stage.holds]) (fun _ _ h => h)
  | @writeConfigured i p n hi hst hc => exact lockInv_put h hi rfl rfl (by simp [Stage.holds]) (fun _ _ h => h)
  | @lockConfigured i p n hi hst hc hn =>
    exact lockInv_put h hi rfl rfl (fun _ => rfl) (fun j _ hj => by rw [hn] at hj; cases hj)
  | @lock i p hi hst hc hn =>
    exact lockInv_put h hi rfl rfl (fun _ => rfl) (fun j _ hj => by rw [hn] at hj; cases hj)
  | @write i p hi hst =>
    exact lockInv_put h hi rfl rfl (fun _ => h.holds i p hi (by rw [hst]; rfl)) (fun _ _ h => h)
  | @read i p n hi hst hr => exact lockInv_put h hi rfl rfl (fun _ => h.holds i p hi (by rw [hst]; rfl)) (fun _ _ h => h)
  | @readPanic i p hi hst hr =>
    refine lockInv_put h hi rfl rfl (by simp [Stage.holds]) ?_
    intro j hne hj
    have hx : j ≠ i := hne
    simp [World.unlock, hj, hx]
  | @openDb i p n hi hst =>
    constructor
    · intro j q hj hh
      rcases get_put hi hj with ⟨rfl, rfl⟩ | ⟨hne, hj'⟩
      · exact h.holds _ p hi hh
      · exact h.holds j q hj' hh
    · intro j q d hj hm hd
      rcases get_put hi hj with ⟨rfl, rfl⟩ | ⟨hne, hj'⟩
      · rcases List.mem_append.1 hm with hm | hm
        · exact h.workers _ p d hi hm hd
        · rw [List.mem_singleton.1 hm]
      · exact h.workers j q d hj' hm hd
  | @persist i k p c hi hk hc =>
    exact lockInv_ctx h hi hk (fun _ => h.workers i p c hi (List.mem_of_getElem? hk) (Or.inl hc))
  | @persisted i k p c hi hk =>
    refine lockInv_ctx h hi hk (fun hx => ?_)
    rcases hx with hx | hx
    · exact h.workers i p c hi (List.mem_of_getElem? hk) (Or.inl hx)
    · cases hx
  | @dropCtx i k p c hi hk =>
    refine lockInv_ctx h hi hk (fun hx => ?_)
    rcases hx with hx | hx
    · cases hx
    · exact h.workers i p c hi (List.mem_of_getElem? hk) (Or.inr hx)
  | @workerEnds i k p c hi hk h1 h2 =>
    refine lockInv_ctx h hi hk (fun hx => ?_)
    rcases hx with hx | hx
    · simp only [h1] at hx; cases hx
    · simp only [h2] at hx; cases hx
  | @close i p n hi hst => exact lockInv_put h hi rfl rfl (fun _ => h.holds i p hi (by rw [hst]; rfl)) (fun _ _ h => h)
  | @release i p n hi hst hc =>
    refine lockInv_put h hi rfl rfl (by simp [Stage.holds]) ?_
    intro j hne hj
    have hx : j ≠ i := hne
    simp [World.unlock, hj, hx]
  | @crash i p hi =>
    refine lockInv_put h hi rfl rfl (by simp [Stage.holds]) ?_
    intro j hne hj
    have hx : j ≠ i := hne
    simp [World.unlock, hj, hx]
  | @crashWriting i p k hi hst =>
    refine lockInv_put h hi rfl rfl (by simp [Stage.holds]) ?_
    intro j hne hj
    have hx : j ≠ i := hne
    simp [World.unlock, hj, hx]

theorem lockInv_steps {w₀ w : World} (h₀ : w₀.procs = []) (h : Steps w₀ w) : LockInv w := by
  induction h with
  | refl => exact ⟨by simp [h₀], by simp [h₀]⟩
  | step _ hs ih => exact lockInv_step ih hs

/-- **C86 (one at a time)**: however many openings of a directory there are, in one process or in several, and however
they end, at most one of them can change the data at any time: also while the last keys of a storage that was dropped
are being persisted. -/
theorem C86_exclusive {w₀ w : World} {i j : Nat} {p q : Proc} (h₀ : w₀.procs = []) (h : Steps w₀ w)
    (hi : w.procs[i]? = some p) (hj : w.procs[j]? = some q) (hp : p.CanWrite) (hq : q.CanWrite) : i = j := by
  have hl := lockInv_steps h₀ h
  have key : ∀ (p : Proc), p.CanWrite → p.stage.holds = true := by
    intro p hp
    rcases hp with ⟨n, hn⟩ | ⟨⟨n, hn⟩, _⟩ <;> rw [hn] <;> rfl
  have h1 := hl.holds i p hi (key p hp)
  have h2 := hl.holds j q hj (key q hq)
  rw [h1] at h2
  exact Option.some.inj h2

/-- **C86 (the lock is kept long enough)**: the lock is given up only when nothing is left to be persisted. -/
theorem C86_release {w₀ w : World} {i : Nat} {p : Proc} {c : Ctx} (h₀ : w₀.procs = []) (h : Steps w₀ w)
    (hi : w.procs[i]? = some p) (hc : ∀ c ∈ p.ctxs, c.worker = false) (hm : c ∈ p.ctxs) :
    c.kept = false ∧ c.persisting = false := by
  have hl := lockInv_steps h₀ h
  have hw := hc c hm
  constructor
  · cases hk : c.kept with
    | false => rfl
    | true => rw [hl.workers i p c hi hm (Or.inl hk)] at hw; cases hw
  · cases hk : c.persisting with
    | false => rfl
    | true => rw [hl.workers i p c hi hm (Or.inr hk)] at hw; cases hw

/-! ## The same id every time -/

/-- The opening is past reading or writing the id. -/
def Stage.settled : Stage → Bool
  | .running _ => true
  | .closing _ => true
  | .panicked => true
  | .gone => true
  | _ => false

/-- The invariant once the file is there: of the openings numbered from `m` on. -/
structure IdInv (s : List Char) (m : Nat) (w : World) : Prop where
  file : w.file = some s
  stages : ∀ (i : Nat) (p : Proc), w.procs[i]? = some p →
    p.stage ≠ .toCreate ∧ p.stage ≠ .created ∧ p.stage ≠ .wrote ∧ p.stage ≠ .locked true ∧
      (p.stage = .locked false → p.cfg = none)
  ids : ∀ (i : Nat) (p : Proc) (n : Nat), m ≤ i → w.procs[i]? = some p → p.stage = .running n ∨ p.stage = .closing n →
    some n = (p.cfg.or (readId s))

theorem idInv_put {s : List Char} {m : Nat} {w w₁ : World} {i : Nat} {p p' : Proc} (h : IdInv s m w)
    (hi : w.procs[i]? = some p) (hp : w₁.procs = w.procs) (hf : w₁.file = w.file)
    (h1 : p'.stage ≠ .toCreate ∧ p'.stage ≠ .created ∧ p'.stage ≠ .wrote ∧ p'.stage ≠ .locked true ∧
      (p'.stage = .locked false → p'.cfg = none))
    (h2 : ∀ n, m ≤ i → p'.stage = .running n ∨ p'.stage = .closing n → some n = (p'.cfg.or (readId s))) :
    IdInv s m (w₁.put i p') := by
  have hi' : w₁.procs[i]? = some p := by rw [hp]; exact hi
  refine ⟨hf.trans h.file, ?_, ?_⟩
  · intro j q hj
    rcases get_put hi' hj with ⟨rfl, rfl⟩ | ⟨hne, hj'⟩
    · exact h1
    · rw [hp] at hj'; exact h.stages j q hj'
  · intro j q n hm hj hq
    rcases get_put hi' hj with ⟨rfl, rfl⟩ | ⟨hne, hj'⟩
    · exact h2 n hm hq
    · rw [hp] at hj'; exact h.ids j q n hm hj' hq

/-- Where a new opening is found. -/
theorem get_start {ps : List Proc} {x : Proc} {j : Nat} {q : Proc} (hj : (ps ++ [x])[j]? = some q) :
    ps[j]? = some q ∨ (j = ps.length ∧ q = x) := by
  by_cases hlt : j < ps.length
  · rw [List.getElem?_append_left hlt] at hj; exact Or.inl hj
  · have hle := (List.getElem?_eq_some_iff.1 hj).1
    simp only [List.length_append, List.length_singleton] at hle
    have : j = ps.length := by omega
    subst this
    simp only [List.getElem?_append_right (Nat.le_refl _), Nat.sub_self, List.getElem?_cons_zero,
      Option.some.injEq] at hj
    exact Or.inr ⟨rfl, hj.symm⟩

theorem idInv_step {s : List Char} {m : Nat} {w w' : World} (h : IdInv s m w) (hs : Step w w') : IdInv s m w' := by
  have hfile := h.file
  have hcont : w.contents = s := by simp [World.contents, hfile]
  cases hs with
  | start cfg draw h1 h2 =>
    refine ⟨hfile, ?_, ?_⟩
    · intro j q hj
      rcases get_start hj with h' | ⟨_, rfl⟩
      · exact h.stages j q h'
      · simp
    · intro j q n hm hj hq
      rcases get_start hj with h' | ⟨_, rfl⟩
      · exact h.ids j q n hm h' hq
      · simp at hq
  | @look i p hi hst => exact idInv_put h hi rfl rfl (by simp [hfile]) (by simp [hfile])
  | @openFile i p hi hst => exact idInv_put h hi rfl rfl (by simp) (by simp)
  | @create i p hi hst => exact absurd hst (h.stages i p hi).1
  | @writeConfigured i p n hi hst hc => exact absurd hst (h.stages i p hi).2.1
  | @lockConfigured i p n hi hst hc hn =>
    refine idInv_put h hi rfl rfl (by simp) ?_
    intro k _ hk
    simp only [Stage.running.injEq, reduceCtorEq, or_false] at hk
    simp [hc, hk]
  | @lock i p hi hst hc hn =>
    rcases hst with hst | hst
    · refine idInv_put h hi rfl rfl ?_ (by simp)
      simp [hst, hc]
    · exact absurd hst (h.stages i p hi).2.1
  | @write i p hi hst => exact absurd hst (h.stages i p hi).2.2.2.1
  | @read i p n hi hst hr =>
    refine idInv_put h hi rfl rfl (by simp) ?_
    intro k hmi hk
    simp only [Stage.running.injEq, reduceCtorEq, or_false] at hk
    rw [hcont] at hr
    simp [(h.stages i p hi).2.2.2.2 hst, hr, hk]
  | @readPanic i p hi hst hr => exact idInv_put h hi rfl rfl (by simp) (by simp)
  | @openDb i p n hi hst =>
    exact idInv_put h hi rfl rfl (h.stages i p hi) (fun n hm hn => h.ids i p n hm hi hn)
  | @persist i k p c hi hk hc =>
    exact idInv_put h hi rfl rfl (h.stages i p hi) (fun n hm hn => h.ids i p n hm hi hn)
  | @persisted i k p c hi hk =>
    exact idInv_put h hi rfl rfl (h.stages i p hi) (fun n hm hn => h.ids i p n hm hi hn)
  | @dropCtx i k p c hi hk =>
    exact idInv_put h hi rfl rfl (h.stages i p hi) (fun n hm hn => h.ids i p n hm hi hn)
  | @workerEnds i k p c hi hk h1 h2 =>
    exact idInv_put h hi rfl rfl (h.stages i p hi) (fun n hm hn => h.ids i p n hm hi hn)
  | @close i p n hi hst =>
    refine idInv_put h hi rfl rfl (by simp) ?_
    intro k hm hk
    simp only [Stage.closing.injEq, reduceCtorEq, false_or] at hk
    subst hk
    exact h.ids i p _ hm hi (Or.inl hst)
  | @release i p n hi hst hc => exact idInv_put h hi rfl rfl (by simp) (by simp)
  | @crash i p hi => exact idInv_put h hi rfl rfl (by simp) (by simp)
  | @crashWriting i p k hi hst =>
    rcases hst with hst | ⟨hst, _⟩
    · exact absurd hst (h.stages i p hi).2.2.2.1
    · exact absurd hst (h.stages i p hi).2.1

theorem idInv_steps {s : List Char} {m : Nat} {w w' : World} (h : IdInv s m w) (hs : Steps w w') : IdInv s m w' := by
  induction hs with
  | refl => exact h
  | step _ h2 ih => exact idInv_step ih h2

/-- **C86 (the id does not change)**: once the file holds an id and every opening so far is past looking for it, nothing
that happens later, no number of openings and crashes, changes the file, and every later opening runs with the id in
the file, or with the one configured. -/
theorem C86_id_kept {w w' : World} {s : List Char} {n k : Nat} {i : Nat} {p : Proc} (hf : w.file = some s)
    (hn : readId s = some n) (hset : ∀ q ∈ w.procs, q.stage.settled = true) (h : Steps w w') :
    w'.file = some s ∧
      (w.procs.length ≤ i → w'.procs[i]? = some p → p.stage = .running k → k = p.cfg.getD n) := by
  have h0 : IdInv s w.procs.length w := by
    refine ⟨hf, ?_, ?_⟩
    · intro j q hj
      have := hset q (List.mem_of_getElem? hj)
      refine ⟨?_, ?_, ?_, ?_, ?_⟩ <;> intro e <;> rw [e] at this <;> cases this
    · intro j q x hm hj
      have := (List.getElem?_eq_some_iff.1 hj).1
      omega
  have hI := idInv_steps h0 h
  refine ⟨hI.file, ?_⟩
  intro hm hi hst
  have := hI.ids i p k hm hi (Or.inl hst)
  rw [hn] at this
  cases hc : p.cfg with
  | none => rw [hc] at this; simpa using this
  | some c => rw [hc] at this; simpa using this

/-! ## The first opening -/

theorem readId_decimal {n : Nat} (h : n < 2 ^ 64) : readId (decimal n) = some n := by
  rw [readId, parseUnsigned_digits (decimal_ne_nil n) (decimal_digits n), parseDigits_decimal h]

/-- What the file is while there has been one opening. -/
def FirstOk (p : Proc) (f : Option (List Char)) : Prop :=
  p.cfg.getD p.draw < 2 ^ 64 ∧
  match p.stage with
  | .check => f = none
  | .toCreate => f = none
  | .created => f = some []
  | .wrote => ∃ n, p.cfg = some n ∧ f = some (decimal n)
  | .locked true => p.cfg = none ∧ f = some []
  | .running n => n = p.cfg.getD p.draw ∧ f = some (decimal n)
  | .closing n => n = p.cfg.getD p.draw ∧ f = some (decimal n)
  | .gone => True
  | _ => False

/-- The invariant while there has been at most one opening. -/
def First (w : World) : Prop :=
  (w.procs = [] → w.file = none) ∧ ∀ p, w.procs = [p] → FirstOk p w.file

theorem put_single {w : World} {i : Nat} {p p' q : Proc} (hi : w.procs[i]? = some p)
    (h : (w.put i p').procs = [q]) : w.procs = [p] ∧ q = p' := by
  have hl : w.procs.length = 1 := by
    have := congrArg List.length h
    simpa [World.put] using this
  obtain ⟨x, hx⟩ := List.length_eq_one_iff.1 hl
  rw [hx] at hi
  have hlt := (List.getElem?_eq_some_iff.1 hi).1
  have h0 : i = 0 := by simpa using hlt
  subst h0
  simp only [List.getElem?_cons_zero, Option.some.injEq] at hi
  subst hi
  simp only [World.put, hx, List.set_cons_zero, List.cons.injEq, and_true] at h
  exact ⟨hx, h.symm⟩

theorem first_put {w w₁ : World} {i : Nat} {p p' : Proc} (h : First w) (hp : w₁.procs = w.procs)
    (hi : w.procs[i]? = some p) (hf : FirstOk p w.file → FirstOk p' w₁.file) : First (w₁.put i p') := by
  have hi' : w₁.procs[i]? = some p := by rw [hp]; exact hi
  constructor
  · intro h0
    have hl : w.procs.length = 0 := by
      have := congrArg List.length h0
      simpa [World.put, hp] using this
    have := (List.getElem?_eq_some_iff.1 hi).1
    omega
  · intro q hq
    obtain ⟨h1, h2⟩ := put_single hi' hq
    rw [hp] at h1
    subst h2
    exact hf (h.2 p h1)

theorem first_step {w w' : World} (h : First w) (hs : Step w w') : First w' := by
  cases hs with
  | start cfg draw h1 h2 =>
    constructor
    · intro h0; simp at h0
    · intro q hq
      have hl : w.procs = [] := by
        have := congrArg List.length hq
        simp only [List.length_append, List.length_singleton] at this
        exact List.length_eq_zero_iff.1 (by omega)
      rw [hl] at hq
      simp only [List.nil_append, List.cons.injEq, and_true] at hq
      subst hq
      refine ⟨?_, h.1 hl⟩
      cases cfg with
      | none => simpa using h1
      | some n => simpa using h2 n rfl
  | @look i p hi hst =>
    refine first_put h rfl hi ?_
    rintro ⟨hb, hf⟩
    simp only [hst] at hf
    exact ⟨hb, by simp [hf]⟩
  | @openFile i p hi hst =>
    refine first_put h rfl hi ?_
    rintro ⟨hb, hf⟩
    simp only [hst] at hf
  | @create i p hi hst =>
    exact first_put (w₁ := { w with file := some [] }) h rfl hi (fun hf => ⟨hf.1, rfl⟩)
  | @writeConfigured i p n hi hst hc =>
    refine first_put (w₁ := { w with file := some (overwrite (decimal n) w.contents) }) h rfl hi ?_
    rintro ⟨hb, hf⟩
    simp only [hst] at hf
    exact ⟨hb, n, hc, by simp [overwrite, World.contents, hf]⟩
  | @lockConfigured i p n hi hst hc hn =>
    refine first_put (w₁ := { w with holder := some i }) h rfl hi ?_
    rintro ⟨hb, hf⟩
    rcases hst with hst | hst
    · simp only [hst] at hf
    · simp only [hst] at hf
      obtain ⟨k, hk, hf⟩ := hf
      rw [hc] at hk
      cases hk
      exact ⟨hb, by simp [hc], hf⟩
  | @lock i p hi hst hc hn =>
    refine first_put (w₁ := { w with holder := some i }) h rfl hi ?_
    rintro ⟨hb, hf⟩
    rcases hst with hst | hst
    · simp only [hst] at hf
    · simp only [hst] at hf
      refine ⟨hb, ?_⟩
      simp only [hst, decide_true]
      exact ⟨hc, hf⟩
  | @write i p hi hst =>
    refine first_put (w₁ := { w with file := some (overwrite (decimal p.draw) w.contents) }) h rfl hi ?_
    rintro ⟨hb, hf⟩
    simp only [hst] at hf
    exact ⟨hb, by simp [hf.1], by simp [overwrite, World.contents, hf.2]⟩
  | @read i p n hi hst hr =>
    refine first_put h rfl hi ?_
    rintro ⟨hb, hf⟩
    simp only [hst] at hf
  | @readPanic i p hi hst hr =>
    refine first_put (w₁ := w.unlock i) h rfl hi ?_
    rintro ⟨hb, hf⟩
    simp only [hst] at hf
  | @openDb i p n hi hst => exact first_put h rfl hi (fun hf => hf)
  | @persist i k p c hi hk hc => exact first_put h rfl hi (fun hf => hf)
  | @persisted i k p c hi hk => exact first_put h rfl hi (fun hf => hf)
  | @dropCtx i k p c hi hk => exact first_put h rfl hi (fun hf => hf)
  | @workerEnds i k p c hi hk h1 h2 => exact first_put h rfl hi (fun hf => hf)
  | @close i p n hi hst =>
    refine first_put h rfl hi ?_
    rintro ⟨hb, hf⟩
    simp only [hst] at hf
    exact ⟨hb, hf⟩
  | @release i p n hi hst hc =>
    exact first_put (w₁ := w.unlock i) h rfl hi (fun hf => ⟨hf.1, trivial⟩)
  | @crash i p hi =>
    exact first_put (w₁ := w.unlock i) h rfl hi (fun hf => ⟨hf.1, trivial⟩)
  | @crashWriting i p k hi hst =>
    exact first_put (w₁ := World.unlock ⟨some (overwrite ((decimal (p.cfg.getD p.draw)).take k) w.contents), w.holder,
      w.procs⟩ i) h rfl hi (fun hf => ⟨hf.1, trivial⟩)

theorem first_steps {w : World} (h : Steps World.empty w) : First w := by
  induction h with
  | refl => exact ⟨fun _ => rfl, by simp [World.empty]⟩
  | step _ hs ih => exact first_step ih hs

/-- **C86 (the first opening)**: an opening of a directory without a storage, alone, runs with the configured id or the
one drawn, and that id is what the file holds. -/
theorem C86_first {w : World} {p : Proc} {n : Nat} (h : Steps World.empty w) (hp : w.procs = [p])
    (hr : p.stage = .running n) : n = p.cfg.getD p.draw ∧ w.file = some (decimal n) ∧ readId (decimal n) = some n := by
  obtain ⟨hb, hf⟩ := (first_steps h).2 p hp
  simp only [hr] at hf
  exact ⟨hf.1, hf.2, readId_decimal (by rw [hf.1]; exact hb)⟩

/-- **C86 (the same id every time)**: once the first opening of a directory ran alone, with id `n`, every later opening,
among any number of others, at the same time or later, whoever crashes, runs with `n`, or with the id configured for
it. -/
theorem C86_same_id {w w' : World} {p q : Proc} {n k i : Nat} (h : Steps World.empty w) (hp : w.procs = [p])
    (hr : p.stage = .running n) (h' : Steps w w') (hi : 1 ≤ i) (hq : w'.procs[i]? = some q)
    (hk : q.stage = .running k) : k = q.cfg.getD n ∧ w'.file = some (decimal n) := by
  obtain ⟨_, hf, hrd⟩ := C86_first h hp hr
  have := C86_id_kept (i := i) (p := q) (k := k) hf hrd
    (by intro x hx; rw [hp] at hx; rw [List.mem_singleton.1 hx, hr]; rfl) h'
  exact ⟨this.2 (by rw [hp]; exact hi) hq hk, this.1⟩

/-! ## An opening can go on -/

/-- Who is said to hold the lock does. -/
def Held (w : World) : Prop := ∀ i, w.holder = some i → ∃ p, w.procs[i]? = some p ∧ p.stage.holds = true

theorem held_put {w w₁ : World} {i : Nat} {p p' : Proc} (h : Held w) (hi : w.procs[i]? = some p)
    (hp : w₁.procs = w.procs) (ho : ∀ j, j ≠ i → w₁.holder = some j → w.holder = some j)
    (hs : w₁.holder = some i → p'.stage.holds = true) : Held (w₁.put i p') := by
  intro j hj
  have hlt : i < w.procs.length := (List.getElem?_eq_some_iff.1 hi).1
  have hj' : w₁.holder = some j := hj
  by_cases hij : i = j
  · subst hij
    exact ⟨p', by simp [World.put, hp, hlt], hs hj'⟩
  · obtain ⟨q, hq, hh⟩ := h j (ho j (fun e => hij e.symm) hj')
    exact ⟨q, by simp [World.put, hp, List.getElem?_set_ne hij, hq], hh⟩

theorem held_keep {w : World} {i : Nat} {p p' : Proc} (h : Held w) (hi : w.procs[i]? = some p)
    (hs : p.stage.holds = true → p'.stage.holds = true) {f : Option (List Char)} :
    Held ({ w with file := f }.put i p') := by
  refine held_put (w₁ := { w with file := f }) h hi rfl (fun _ _ h => h) ?_
  intro hh
  obtain ⟨q, hq, hq'⟩ := h i hh
  rw [hi] at hq
  cases hq
  exact hs hq'

theorem held_unlock {w : World} {i : Nat} {p p' : Proc} (h : Held w) (hi : w.procs[i]? = some p)
    {f : Option (List Char)} : Held ((World.unlock { w with file := f } i).put i p') := by
  refine held_put (w₁ := World.unlock { w with file := f } i) h hi rfl ?_ ?_
  · intro j hne hj
    simp only [World.unlock] at hj
    split at hj
    · cases hj
    · exact hj
  · intro hj
    simp only [World.unlock] at hj
    split at hj
    · cases hj
    · next hx => exact absurd hj hx

theorem held_step {w w' : World} (h : Held w) (hs : Step w w') : Held w' := by
  cases hs with
  | start cfg draw h1 h2 =>
    intro j hj
    obtain ⟨q, hq, hh⟩ := h j hj
    have hlt := (List.getElem?_eq_some_iff.1 hq).1
    exact ⟨q, by simp only [List.getElem?_append_left hlt]; exact hq, hh⟩
  | @look i p hi hst => exact held_keep (f := w.file) h hi (by simp [hst, Stage.holds])
  | @openFile i p hi hst => exact held_keep (f := w.file) h hi (by simp [hst, Stage.holds])
  | @create i p hi hst => exact held_keep h hi (by simp [hst, Stage.holds])
  | @writeConfigured i p n hi hst hc => exact held_keep h hi (by simp [hst, Stage.holds])
  | @lockConfigured i p n hi hst hc hn =>
    exact held_put (w₁ := { w with holder := some i }) h hi rfl
      (fun j hne hj => absurd (Option.some.inj hj).symm hne) (fun _ => rfl)
  | @lock i p hi hst hc hn =>
    exact held_put (w₁ := { w with holder := some i }) h hi rfl
      (fun j hne hj => absurd (Option.some.inj hj).symm hne) (fun _ => rfl)
  | @write i p hi hst => exact held_keep h hi (fun _ => rfl)
  | @read i p n hi hst hr => exact held_keep (f := w.file) h hi (fun _ => rfl)
  | @readPanic i p hi hst hr => exact held_unlock (f := w.file) h hi
  | @openDb i p n hi hst =>
    exact held_keep (f := w.file) (p := p)
      (p' := { p with ctxs := p.ctxs ++ [⟨true, false, true⟩] }) h hi id
  | @persist i k p c hi hk hc =>
    exact held_keep (f := w.file) (p := p)
      (p' := { p with ctxs := p.ctxs.set k { c with persisting := true } }) h hi id
  | @persisted i k p c hi hk =>
    exact held_keep (f := w.file) (p := p)
      (p' := { p with ctxs := p.ctxs.set k { c with persisting := false } }) h hi id
  | @dropCtx i k p c hi hk =>
    exact held_keep (f := w.file) (p := p)
      (p' := { p with ctxs := p.ctxs.set k { c with kept := false } }) h hi id
  | @workerEnds i k p c hi hk h1 h2 =>
    exact held_keep (f := w.file) (p := p)
      (p' := { p with ctxs := p.ctxs.set k { c with worker := false } }) h hi id
  | @close i p n hi hst => exact held_keep (f := w.file) h hi (fun _ => rfl)
  | @release i p n hi hst hc => exact held_unlock (f := w.file) h hi
  | @crash i p hi => exact held_unlock (f := w.file) h hi
  | @crashWriting i p k hi hst => exact held_unlock h hi

theorem held_steps {w : World} (h : Steps World.empty w) : Held w := by
  induction h with
  | refl => intro i hi; cases hi
  | step _ hs ih => exact held_step ih hs

theorem Steps.trans {a b c : World} (h : Steps a b) (h' : Steps b c) : Steps a c := by
  induction h' with
  | refl => exact h
  | step _ hs ih => exact .step ih hs

/-- **C86 (the lock is free again)**: once every opening has ended, by closing or by a crash or a panic, a new opening
of a directory whose file holds an id can be made, and runs. -/
theorem C86_reopen {w : World} {s : List Char} {n : Nat} (h : Steps World.empty w) (hf : w.file = some s)
    (hn : readId s = some n) (hgone : ∀ p ∈ w.procs, p.stage = .gone ∨ p.stage = .panicked) (cfg : Option Nat)
    (hc : ∀ k, cfg = some k → k < 2 ^ 64) :
    ∃ w' p, Steps w w' ∧ w'.procs = w.procs ++ [p] ∧ p.cfg = cfg ∧ p.stage = .running (cfg.getD n) := by
  have hfree : w.holder = none := by
    cases hh : w.holder with
    | none => rfl
    | some i =>
      obtain ⟨p, hp, hs⟩ := held_steps h i hh
      rcases hgone p (List.mem_of_getElem? hp) with e | e <;> rw [e] at hs <;> cases hs
  have hget : ∀ x : Proc, (w.procs ++ [x])[w.procs.length]? = some x := by intro x; simp
  have hset : ∀ x y : Proc, (w.procs ++ [x]).set w.procs.length y = w.procs ++ [y] := by intro x y; simp
  have e0 : Steps w w := .refl
  have e1 := Steps.step e0 (.start cfg 0 (by decide) hc)
  have e2 := Steps.step e1 (.look (i := w.procs.length) (hget _) rfl)
  simp only [hf, Option.isSome_some, if_true, World.put, hset] at e2
  have e3 := Steps.step e2 (.openFile (i := w.procs.length) (hget _) rfl)
  simp only [World.put, hset] at e3
  cases hcfg : cfg with
  | none =>
    subst hcfg
    have e4 := Steps.step e3 (.lock (i := w.procs.length) (hget _) (Or.inl rfl) rfl hfree)
    simp only [World.put, hset] at e4
    have e5 := Steps.step e4 (.read (i := w.procs.length) (n := n) (hget _) rfl (by simpa [World.contents] using hn))
    simp only [World.put, hset] at e5
    exact ⟨_, _, e5, rfl, rfl, rfl⟩
  | some k =>
    subst hcfg
    have e4 := Steps.step e3 (.lockConfigured (i := w.procs.length) (n := k) (hget _) (Or.inl rfl) rfl hfree)
    simp only [World.put, hset] at e4
    exact ⟨_, _, e4, rfl, rfl, rfl⟩

/-! ## Not so -/

/-- **C86 violated (a crash of the first opening)**: the process ends after the file was created and before the id was
written: the file is there and empty.  From then on no opening without a configured id ever runs: each panics. -/
theorem C86_violated_crash : ∃ w, Steps World.empty w ∧ (∀ p ∈ w.procs, p.stage = .gone) ∧
    ∀ w' i p n, Steps w w' → 1 ≤ i → w'.procs[i]? = some p → p.cfg = none → p.stage ≠ .running n := by
  have e0 : Steps World.empty World.empty := .refl
  have e1 := Steps.step e0 (.start none 42 (by decide) (by simp))
  have e2 := Steps.step e1 (.look (i := 0) (p := ⟨none, 42, .check, []⟩) rfl rfl)
  have e3 := Steps.step e2 (.create (i := 0) (p := ⟨none, 42, .toCreate, []⟩) rfl rfl)
  have e4 := Steps.step e3 (.crash (i := 0) (p := ⟨none, 42, .created, []⟩) rfl)
  refine ⟨⟨some [], none, [⟨none, 42, .gone, []⟩]⟩, e4, by simp, ?_⟩
  intro w' i p n h hi hp hc hr
  have h0 : IdInv [] 1 ⟨some [], none, [⟨none, 42, .gone, []⟩]⟩ := by
    refine ⟨rfl, ?_, ?_⟩
    · intro j q hj
      have := List.mem_of_getElem? hj
      simp only [List.mem_singleton] at this
      subst this
      simp
    · intro j q k hm hj
      have := (List.getElem?_eq_some_iff.1 hj).1
      simp at this
      omega
  have := (idInv_steps h0 h).ids i p n hi hp (Or.inl hr)
  rw [hc] at this
  simp [readId, parseUnsigned] at this

theorem dec42 : decimal 42 = ['4', '2'] := by simp [decimal]
theorem dec7 : decimal 7 = ['7'] := by simp [decimal]

/-- **C86 violated (two first openings)**: two openings of a directory without a storage, at the same time: both find
no file.  The first runs with 42, alone, and ends; the second had emptied the file before, and writes 7 over it: it
runs with 7, and the next with 72: neither with what the first ran with. -/
theorem C86_violated_two_first : ∃ w w', Steps World.empty w ∧ Steps w w' ∧
    (∃ p, w.procs[0]? = some p ∧ p.stage = .running 42) ∧ w.file = some (decimal 42) ∧
    (∃ q, w'.procs[1]? = some q ∧ q.cfg = none ∧ q.stage = .running 7) ∧
    (∃ q, w'.procs[2]? = some q ∧ q.cfg = none ∧ q.stage = .toOpen) ∧ w'.file = some ['7', '2'] ∧
    ∃ w'', Steps w' w'' ∧ ∃ q, w''.procs[2]? = some q ∧ q.stage = .running 72 := by
  have e0 : Steps World.empty World.empty := .refl
  have e1 := Steps.step e0 (.start none 42 (by decide) (by simp))
  have e2 := Steps.step e1 (.start none 7 (by decide) (by simp))
  have e3 := Steps.step e2 (.look (i := 0) (p := ⟨none, 42, .check, []⟩) rfl rfl)
  have e4 := Steps.step e3 (.look (i := 1) (p := ⟨none, 7, .check, []⟩) rfl rfl)
  have e5 := Steps.step e4 (.create (i := 0) (p := ⟨none, 42, .toCreate, []⟩) rfl rfl)
  have e6 := Steps.step e5 (.create (i := 1) (p := ⟨none, 7, .toCreate, []⟩) rfl rfl)
  have e7 := Steps.step e6 (.lock (i := 0) (p := ⟨none, 42, .created, []⟩) rfl (Or.inr rfl) rfl rfl)
  have e8 := Steps.step e7 (.write (i := 0) (p := ⟨none, 42, .locked true, []⟩) rfl rfl)
  have f0 := Steps.step (Steps.refl) (.close (w := ⟨some ['4', '2'], some 0,
    [⟨none, 42, .running 42, []⟩, ⟨none, 7, .created, []⟩]⟩) (i := 0) (p := ⟨none, 42, .running 42, []⟩) rfl rfl)
  have f1 := Steps.step f0 (.release (i := 0) (p := ⟨none, 42, .closing 42, []⟩) rfl rfl (by simp))
  have f2 := Steps.step f1 (.lock (i := 1) (p := ⟨none, 7, .created, []⟩) rfl (Or.inr rfl) rfl rfl)
  have f3 := Steps.step f2 (.write (i := 1) (p := ⟨none, 7, .locked true, []⟩) rfl rfl)
  have f4 := Steps.step f3 (.start none 9 (by decide) (by simp))
  have f5 := Steps.step f4 (.look (i := 2) (p := ⟨none, 9, .check, []⟩) rfl rfl)
  have g0 := Steps.step (Steps.refl) (.crash (w := ⟨some ['7', '2'], some 1,
    [⟨none, 42, .gone, []⟩, ⟨none, 7, .running 7, []⟩, ⟨none, 9, .toOpen, []⟩]⟩) (i := 1)
    (p := ⟨none, 7, .running 7, []⟩) rfl)
  have g1 := Steps.step g0 (.openFile (i := 2) (p := ⟨none, 9, .toOpen, []⟩) rfl rfl)
  have g2 := Steps.step g1 (.lock (i := 2) (p := ⟨none, 9, .opened, []⟩) rfl (Or.inl rfl) rfl rfl)
  have g3 := Steps.step g2 (.read (i := 2) (n := 72) (p := ⟨none, 9, .locked false, []⟩) rfl rfl (by decide))
  refine ⟨⟨some ['4', '2'], some 0, [⟨none, 42, .running 42, []⟩, ⟨none, 7, .created, []⟩]⟩,
    ⟨some ['7', '2'], some 1, [⟨none, 42, .gone, []⟩, ⟨none, 7, .running 7, []⟩, ⟨none, 9, .toOpen, []⟩]⟩,
    ?_, ?_, ⟨_, rfl, rfl⟩, by rw [dec42], ⟨_, rfl, rfl, rfl⟩, ⟨_, rfl, rfl, rfl⟩, rfl, _, g3, _, rfl, rfl⟩
  · simpa [World.put, World.empty, World.contents, overwrite, dec42] using e8
  · simpa [World.put, World.empty, World.contents, overwrite, dec7, World.unlock] using f5

/-- **C86 violated (an opening beside the first)**: an opening that finds the file after the first created it and before
the first locked it gets the lock, reads nothing, and panics. -/
theorem C86_violated_race_panic : ∃ w, Steps World.empty w ∧
    (∃ p, w.procs[0]? = some p ∧ p.stage = .created) ∧ ∃ q, w.procs[1]? = some q ∧ q.stage = .panicked := by
  have e0 : Steps World.empty World.empty := .refl
  have e1 := Steps.step e0 (.start none 42 (by decide) (by simp))
  have e2 := Steps.step e1 (.look (i := 0) (p := ⟨none, 42, .check, []⟩) rfl rfl)
  have e3 := Steps.step e2 (.create (i := 0) (p := ⟨none, 42, .toCreate, []⟩) rfl rfl)
  have e4 := Steps.step e3 (.start none 7 (by decide) (by simp))
  have e5 := Steps.step e4 (.look (i := 1) (p := ⟨none, 7, .check, []⟩) rfl rfl)
  have e6 := Steps.step e5 (.openFile (i := 1) (p := ⟨none, 7, .toOpen, []⟩) rfl rfl)
  have e7 := Steps.step e6 (.lock (i := 1) (p := ⟨none, 7, .opened, []⟩) rfl (Or.inl rfl) rfl rfl)
  have e8 := Steps.step e7 (.readPanic (i := 1) (p := ⟨none, 7, .locked false, []⟩) rfl rfl rfl)
  exact ⟨_, e8, ⟨_, rfl, rfl⟩, _, rfl, rfl⟩

/-- **C86 violated (the configured id is persisted)**: the comment of the code says the id in the configuration is not
written to disk, so that it can be taken back; it is, when the storage is new: an opening without it runs with it. -/
theorem C86_violated_configured : ∃ w w', Steps World.empty w ∧ Steps w w' ∧
    (∃ p, w.procs = [p] ∧ p.cfg = some 42 ∧ p.stage = .running 42) ∧
    ∃ q, w'.procs[1]? = some q ∧ q.cfg = none ∧ q.draw = 7 ∧ q.stage = .running 42 := by
  have e0 : Steps World.empty World.empty := .refl
  have e1 := Steps.step e0 (.start (some 42) 9 (by decide) (by simp))
  have e2 := Steps.step e1 (.look (i := 0) (p := ⟨some 42, 9, .check, []⟩) rfl rfl)
  have e3 := Steps.step e2 (.create (i := 0) (p := ⟨some 42, 9, .toCreate, []⟩) rfl rfl)
  have e4 := Steps.step e3 (.writeConfigured (i := 0) (n := 42) (p := ⟨some 42, 9, .created, []⟩) rfl rfl rfl)
  have e5 := Steps.step e4 (.lockConfigured (i := 0) (n := 42) (p := ⟨some 42, 9, .wrote, []⟩) rfl (Or.inr rfl) rfl rfl)
  have f0 := Steps.step (Steps.refl) (.crash (w := ⟨some ['4', '2'], some 0,
    [⟨some 42, 9, .running 42, []⟩]⟩) (i := 0) (p := ⟨some 42, 9, .running 42, []⟩) rfl)
  have f1 := Steps.step f0 (.start none 7 (by decide) (by simp))
  have f2 := Steps.step f1 (.look (i := 1) (p := ⟨none, 7, .check, []⟩) rfl rfl)
  have f3 := Steps.step f2 (.openFile (i := 1) (p := ⟨none, 7, .toOpen, []⟩) rfl rfl)
  have f4 := Steps.step f3 (.lock (i := 1) (p := ⟨none, 7, .opened, []⟩) rfl (Or.inl rfl) rfl rfl)
  have f5 := Steps.step f4 (.read (i := 1) (n := 42) (p := ⟨none, 7, .locked false, []⟩) rfl rfl (by decide))
  refine ⟨⟨some ['4', '2'], some 0, [⟨some 42, 9, .running 42, []⟩]⟩, _, ?_, f5, ⟨_, rfl, rfl, rfl⟩, _, rfl, rfl, rfl, rfl⟩
  simpa [World.put, World.empty, World.contents, overwrite, dec42] using e5

/-! ## The hypotheses are met -/

/-- A storage with an open database whose keys are being persisted after it was dropped, and an opening that waits:
only the first can write. -/
theorem C86_example : ∃ w p q, Steps ⟨some ['4', '2'], none, []⟩ w ∧ w.procs[0]? = some p ∧ w.procs[1]? = some q ∧
    p.stage = .closing 42 ∧ p.CanWrite ∧ q.stage = .opened ∧ w.holder = some 0 := by
  have e0 : Steps (⟨some ['4', '2'], none, []⟩ : World) ⟨some ['4', '2'], none, []⟩ := .refl
  have e1 := Steps.step e0 (.start none 5 (by decide) (by simp))
  have e2 := Steps.step e1 (.look (i := 0) (p := ⟨none, 5, .check, []⟩) rfl rfl)
  have e3 := Steps.step e2 (.openFile (i := 0) (p := ⟨none, 5, .toOpen, []⟩) rfl rfl)
  have e4 := Steps.step e3 (.lock (i := 0) (p := ⟨none, 5, .opened, []⟩) rfl (Or.inl rfl) rfl rfl)
  have e5 := Steps.step e4 (.read (i := 0) (n := 42) (p := ⟨none, 5, .locked false, []⟩) rfl rfl (by decide))
  have e6 := Steps.step e5 (.openDb (i := 0) (n := 42) (p := ⟨none, 5, .running 42, []⟩) rfl rfl)
  have e7 := Steps.step e6 (.persist (i := 0) (k := 0) (c := ⟨true, false, true⟩)
    (p := ⟨none, 5, .running 42, [⟨true, false, true⟩]⟩) rfl rfl rfl)
  have e8 := Steps.step e7 (.close (i := 0) (n := 42) (p := ⟨none, 5, .running 42, [⟨true, true, true⟩]⟩) rfl rfl)
  have e9 := Steps.step e8 (.dropCtx (i := 0) (k := 0) (c := ⟨true, true, true⟩)
    (p := ⟨none, 5, .closing 42, [⟨true, true, true⟩]⟩) rfl rfl)
  have e10 := Steps.step e9 (.start none 6 (by decide) (by simp))
  have e11 := Steps.step e10 (.look (i := 1) (p := ⟨none, 6, .check, []⟩) rfl rfl)
  have e12 := Steps.step e11 (.openFile (i := 1) (p := ⟨none, 6, .toOpen, []⟩) rfl rfl)
  exact ⟨_, ⟨none, 5, .closing 42, [⟨false, true, true⟩]⟩, ⟨none, 6, .opened, []⟩, e12, rfl, rfl, rfl,
    Or.inr ⟨⟨42, rfl⟩, ⟨false, true, true⟩, by simp, Or.inr rfl⟩, rfl, rfl⟩

/-- A first opening, alone, runs; so `C86_first`, `C86_same_id` and `C86_reopen` speak of something. -/
theorem C86_example_first : ∃ w p, Steps World.empty w ∧ w.procs = [p] ∧ p.stage = .running 42 := by
  have e0 : Steps World.empty World.empty := .refl
  have e1 := Steps.step e0 (.start none 42 (by decide) (by simp))
  have e2 := Steps.step e1 (.look (i := 0) (p := ⟨none, 42, .check, []⟩) rfl rfl)
  have e3 := Steps.step e2 (.create (i := 0) (p := ⟨none, 42, .toCreate, []⟩) rfl rfl)
  have e4 := Steps.step e3 (.lock (i := 0) (p := ⟨none, 42, .created, []⟩) rfl (Or.inr rfl) rfl rfl)
  have e5 := Steps.step e4 (.write (i := 0) (p := ⟨none, 42, .locked true, []⟩) rfl rfl)
  exact ⟨_, _, e5, rfl, rfl⟩

end Bonsai.Lock
