import Verif.Store.C25

/-!
# C28: concurrent `modify()` calls lose no update

`CollectionDocument::modify`, core document/collection.rs:156-187: the loop tries an update with the
document at hand; on a conflict it reloads the document and tries again.
-/
set_option linter.unusedSimpArgs false
set_option linter.unusedVariables false

namespace Bonsai.Store
open Bonsai Bonsai.Names

/-- Where one caller of `modify` stands. -/
inductive Phase where
  /-- about to apply the modifier to `d` and send the update -/
  | trying (d : Document)
  /-- got a conflict, about to reload -/
  | reloading
  /-- returned `Ok` -/
  | done
  /-- returned an error -/
  | failed (e : Err)

/-- The database and the callers (caller `i` uses modifier `f i`). -/
structure ModSys where
  db : Db
  callers : Nat → Phase

/-- What happened in a step. -/
inductive ModEvent where
  | modified (i : Nat)
  | other

/-- One step: some caller makes its next database call, or another transaction runs. The modifier
works on the serialized contents and is deterministic. -/
inductive ModStep (s : Schema) (S : Bytes → Prop) (c : QName) (id : Bytes) (f : Nat → Bytes → Bytes) :
    ModSys → ModEvent → ModSys → Prop
  /-- collection.rs:181-184: the update is accepted -/
  | succeed {db db' callers i d tid rs} (hp : callers i = .trying d)
      (h : applyToRoots s db tid [⟨c, .update d.header (f i d.contents)⟩] = (.ok rs, db')) :
      ModStep s S c id f ⟨db, callers⟩ (.modified i) ⟨db', upd callers i .done⟩
  /-- collection.rs:182: conflict, loop -/
  | conflict {db db' callers i d tid c' h'} (hp : callers i = .trying d)
      (h : applyToRoots s db tid [⟨c, .update d.header (f i d.contents)⟩] = (.error (.conflict c' h'), db')) :
      ModStep s S c id f ⟨db, callers⟩ .other ⟨db', upd callers i .reloading⟩
  /-- collection.rs:183: any other error is returned -/
  | error {db db' callers i d tid e} (hp : callers i = .trying d)
      (h : applyToRoots s db tid [⟨c, .update d.header (f i d.contents)⟩] = (.error e, db'))
      (he : ∀ c' h', e ≠ .conflict c' h') :
      ModStep s S c id f ⟨db, callers⟩ .other ⟨db', upd callers i (.failed e)⟩
  /-- collection.rs:172-179: reload -/
  | reload {db callers i d} (hp : callers i = .reloading) (h : getDoc db c id = some d) :
      ModStep s S c id f ⟨db, callers⟩ .other ⟨db, upd callers i (.trying d)⟩
  | gone {db callers i} (hp : callers i = .reloading) (h : getDoc db c id = none) :
      ModStep s S c id f ⟨db, callers⟩ .other ⟨db, upd callers i (.failed (.notFound c id))⟩
  /-- any other transaction of any other client -/
  | transaction {db callers tid ops} (hw : Writes S ops) :
      ModStep s S c id f ⟨db, callers⟩ .other ⟨(applyToRoots s db tid ops).2, callers⟩

inductive ModExec (s : Schema) (S : Bytes → Prop) (c : QName) (id : Bytes) (f : Nat → Bytes → Bytes) :
    ModSys → List ModEvent → ModSys → Prop
  | nil (σ) : ModExec s S c id f σ [] σ
  | snoc {σ es σ1 e σ2} (h : ModExec s S c id f σ es σ1) (hs : ModStep s S c id f σ1 e σ2) :
      ModExec s S c id f σ (es ++ [e]) σ2

/-- Every caller starts with a document read earlier from the database, not edited by hand. -/
def ModStart (s : Schema) (S : Bytes → Prop) (c : QName) (id : Bytes) (σ : ModSys) : Prop :=
  Reachable s S σ.db ∧ ∀ i, ∃ d db0, σ.callers i = .trying d ∧ Reachable s S db0 ∧
    getDoc db0 c id = some d

/-- A document that may be in a caller's hands. -/
def Held (s : Schema) (S : Bytes → Prop) (id : Bytes) (d : Document) : Prop :=
  d.header.id = id ∧ d.header.revision.sha = s.digest d.contents ∧ S d.contents

structure ModInv (s : Schema) (S : Bytes → Prop) (c : QName) (id : Bytes) (σ : ModSys) : Prop where
  reach : Reachable s S σ.db
  held : ∀ i d, σ.callers i = .trying d → Held s S id d

theorem update_writes {S : Bytes → Prop} {c : QName} {h : Header} {x : Bytes} (hx : S x) :
    Writes S [⟨c, .update h x⟩] := by
  intro op hop z hz
  simp at hop
  subst hop
  simp [Command.contents] at hz
  subst hz
  exact hx

theorem modInv_step {s S c id f σ e σ'} (hS : CollisionFree s.digest S)
    (hf : ∀ i x, S x → S (f i x)) (h : ModInv s S c id σ) (hs : ModStep s S c id f σ e σ') :
    ModInv s S c id σ' := by
  have upd_held : ∀ {callers : Nat → Phase} {i p}, (∀ j d, callers j = .trying d → Held s S id d) →
      (∀ d, p = .trying d → Held s S id d) → ∀ j d, upd callers i p j = .trying d → Held s S id d := by
    intro callers i p h1 h2 j d hj
    by_cases hji : j = i
    · subst hji; rw [upd_self] at hj; exact h2 d hj
    · rw [upd_ne _ _ hji] at hj; exact h1 j d hj
  have reach_upd : ∀ {db db' : Db} {callers : Nat → Phase} {i d tid r}, Reachable s S db → Held s S id d →
      applyToRoots s db tid [⟨c, .update d.header (f i d.contents)⟩] = (r, db') → Reachable s S db' := by
    intro db db' callers i d tid r hr hh ha
    have := Reachable.transaction tid _ hr (update_writes (c := c) (h := d.header) (hf i _ hh.2.2))
    rw [ha] at this
    exact this
  obtain ⟨hr, hh⟩ := h
  cases hs with
  | succeed hp ha => exact ⟨reach_upd (callers := fun _ => .done) hr (hh _ _ hp) ha, upd_held hh (by simp)⟩
  | conflict hp ha => exact ⟨reach_upd (callers := fun _ => .done) hr (hh _ _ hp) ha, upd_held hh (by simp)⟩
  | error hp ha _ => exact ⟨reach_upd (callers := fun _ => .done) hr (hh _ _ hp) ha, upd_held hh (by simp)⟩
  | reload hp hd =>
    refine ⟨hr, upd_held hh ?_⟩
    intro d he
    cases he
    exact hr.wf hS _ _ _ hd
  | gone hp hd => exact ⟨hr, upd_held hh (by simp)⟩
  | transaction hw => exact ⟨.transaction _ _ hr hw, hh⟩

theorem modInv_exec {s S c id f σ es σ'} (hS : CollisionFree s.digest S)
    (hf : ∀ i x, S x → S (f i x)) (h : ModInv s S c id σ) (he : ModExec s S c id f σ es σ') :
    ModInv s S c id σ' := by
  induction he with
  | nil => exact h
  | snoc _ hs ih => exact modInv_step hS hf ih hs

theorem modStart_inv {s S c id σ} (hS : CollisionFree s.digest S) (h : ModStart s S c id σ) :
    ModInv s S c id σ := by
  refine ⟨h.1, ?_⟩
  intro i d hd
  obtain ⟨d', db0, h1, h2, h3⟩ := h.2 i
  rw [hd] at h1
  cases h1
  exact h2.wf hS _ _ _ h3

/-- The single update of a `modify` that was accepted found the contents the modifier was applied
to. -/
theorem accepted_update {s S c id db db' tid d x rs} (hS : CollisionFree s.digest S)
    (hr : Reachable s S db) (hh : Held s S id d) (hx : S x)
    (ha : applyToRoots s db tid [⟨c, .update d.header x⟩] = (.ok rs, db')) :
    ∃ d0 d1, getDoc db c id = some d0 ∧ d0.contents = d.contents ∧ getDoc db' c id = some d1 ∧
      d1.contents = x ∧
      ∀ c' id', ¬ (c' = c ∧ id' = id) → getDoc db' c' id' = getDoc db c' id' := by
  have hk : c ∈ s.collections := by
    unfold applyToRoots prepare at ha
    by_cases hk : collectionsKnown s [⟨c, .update d.header x⟩] = true
    · simpa [collectionsKnown] using hk
    · rw [if_neg hk] at ha; cases ha
  obtain ⟨h1, h2, h3⟩ := hh
  rcases apply_single (s := s) (db := db) (tid := tid) (op := ⟨c, .update d.header x⟩) hk with
    ⟨t', r, ch, hex, happ⟩ | ⟨e, hex, happ⟩
  · rw [happ] at ha
    cases ha
    have hst := execUpdate_stored hS (hr.wf hS) hx hex
    obtain ⟨hd', -, g1, g2, g3⟩ := hst
    rw [h1] at g1 g2 g3
    cases hg : (db.trees.docs c).get id with
    | none =>
      simp only [execOp, execUpdate] at hex
      rw [h1, hg] at hex
      simp [updateStored] at hex
    | some d0 =>
      refine ⟨d0, ⟨hd', x⟩, hg, ?_, g1, rfl, g2⟩
      simp only [execOp, execUpdate] at hex
      rw [h1, hg] at hex
      simp only [updateStored] at hex
      by_cases hc : some d.header.revision = none ∨ some d.header.revision = some d0.header.revision
      · simp at hc
        obtain ⟨k1, k2, k3⟩ := hr.wf hS _ _ _ hg
        exact hS _ _ k3 h3 (by rw [← k2, ← h2, hc])
      · rw [if_neg hc] at hex; cases hex
  · rw [happ] at ha; cases ha

/-- **C28.** In every interleaving of any number of `modify` calls with each other and with other
transactions: at the moment a call succeeds, its modifier is applied to the contents the document
has at that very moment; nothing else changes. -/
theorem C28_modify_applies_to_latest (s : Schema) (S : Bytes → Prop) (hS : CollisionFree s.digest S)
    (c : QName) (id : Bytes) (f : Nat → Bytes → Bytes) (hf : ∀ i x, S x → S (f i x))
    (σ0 σ σ' : ModSys) (h0 : ModStart s S c id σ0) (es : List ModEvent)
    (he : ModExec s S c id f σ0 es σ) (i : Nat) (hs : ModStep s S c id f σ (.modified i) σ') :
    ∃ d d', getDoc σ.db c id = some d ∧ getDoc σ'.db c id = some d' ∧
      d'.contents = f i d.contents ∧
      ∀ c' id', ¬ (c' = c ∧ id' = id) → getDoc σ'.db c' id' = getDoc σ.db c' id' := by
  have hinv := modInv_exec hS hf (modStart_inv hS h0) he
  cases hs with
  | succeed hp ha =>
    obtain ⟨d0, d1, h1, h2, h3, h4, h5⟩ :=
      accepted_update hS hinv.reach (hinv.held _ _ hp) (hf _ _ (hinv.held _ _ hp).2.2) ha
    exact ⟨d0, d1, h1, h3, by rw [h4, h2], h5⟩

/-- Steps taken by the callers of `modify` only. -/
inductive ModOnly (s : Schema) (S : Bytes → Prop) (c : QName) (id : Bytes) (f : Nat → Bytes → Bytes) :
    ModSys → List ModEvent → ModSys → Prop
  | nil (σ) : ModOnly s S c id f σ [] σ
  | snoc {σ es σ1 e σ2} (h : ModOnly s S c id f σ es σ1) (hs : ModStep s S c id f σ1 e σ2)
      (hdoc : e = .other → getDoc σ2.db c id = getDoc σ1.db c id) : ModOnly s S c id f σ (es ++ [e]) σ2

/-- Apply the modifiers of the successful calls, in commit order. -/
def composed (f : Nat → Bytes → Bytes) (x : Bytes) (es : List ModEvent) : Bytes :=
  es.foldl (fun x e => match e with
    | .modified i => f i x
    | .other => x) x

theorem ModOnly.exec {s S c id f σ es σ'} (h : ModOnly s S c id f σ es σ') :
    ModExec s S c id f σ es σ' := by
  induction h with
  | nil => exact .nil _
  | snoc _ hs _ ih => exact .snoc ih hs

/-- **C28.** If nobody else writes the document, its final contents are the modifiers of the
successful calls applied one after another, in commit order, to the initial contents: no successful
call is lost, none is applied twice. -/
theorem C28_modifiers_compose (s : Schema) (S : Bytes → Prop) (hS : CollisionFree s.digest S)
    (c : QName) (id : Bytes) (f : Nat → Bytes → Bytes) (hf : ∀ i x, S x → S (f i x))
    (σ0 σ : ModSys) (h0 : ModStart s S c id σ0) (es : List ModEvent)
    (he : ModOnly s S c id f σ0 es σ) (d : Document) (hd : getDoc σ0.db c id = some d) :
    ∃ d', getDoc σ.db c id = some d' ∧ d'.contents = composed f d.contents es := by
  induction he with
  | nil => exact ⟨d, hd, rfl⟩
  | snoc h hs hdoc ih =>
    obtain ⟨d1, h1, h2⟩ := ih
    rename_i e σ2
    cases e with
    | other => exact ⟨d1, by rw [hdoc rfl]; exact h1, by rw [h2]; simp [composed]⟩
    | modified i =>
      obtain ⟨a, b, ha, hb, hab, -⟩ := C28_modify_applies_to_latest s S hS c id f hf _ _ _ h0 _ h.exec i hs
      rw [h1] at ha
      cases ha
      exact ⟨b, hb, by rw [hab, h2]; simp [composed]⟩

/-- A failed attempt (conflict or other error) and a reload change no document. -/
theorem C28_failed_attempts_change_nothing (s : Schema) (db db' : Db) (tid : Nat)
    (ops : List Operation) (e : Err)
    (h : applyToRoots s db tid ops = (.error e, db')) : db' = db := by
  unfold applyToRoots at h
  split at h
  · cases h; rfl
  · cases h

/-- Two callers append their number to the same document; the second one conflicts, reloads and
retries: both effects are in the result. -/
example : ∃ σ, ModOnly exSchema (fun _ => True) exC [7] (fun i x => x ++ [UInt8.ofNat i])
    ⟨exDb, fun _ => .trying ⟨⟨[7], ⟨1, [2]⟩⟩, [2]⟩⟩
    [.modified 8, .other, .other, .modified 9] σ ∧
    (getDoc σ.db exC [7]).map (·.contents) = some [2, 8, 9] := by
  refine ⟨_, .snoc (.snoc (.snoc (.snoc (.nil _)
    (.succeed (i := 8) (tid := 3) (d := ⟨⟨[7], ⟨1, [2]⟩⟩, [2]⟩)
      (db' := (applyToRoots exSchema exDb 3 [⟨exC, .update ⟨[7], ⟨1, [2]⟩⟩ [2, 8]⟩]).2) rfl rfl) ?_)
    (.conflict (i := 9) (tid := 4) (d := ⟨⟨[7], ⟨1, [2]⟩⟩, [2]⟩) (c' := exC)
      (h' := ⟨[7], ⟨2, [2, 8]⟩⟩) rfl rfl) ?_)
    (.reload (i := 9) (d := ⟨⟨[7], ⟨2, [2, 8]⟩⟩, [2, 8]⟩) rfl rfl) ?_)
    (.succeed (i := 9) (tid := 5) (d := ⟨⟨[7], ⟨2, [2, 8]⟩⟩, [2, 8]⟩) rfl rfl) ?_, rfl⟩
  · intro h; cases h
  · intro _; rfl
  · intro _; rfl
  · intro h; cases h

example : ModStart exSchema (fun _ => True) exC [7] ⟨exDb, fun _ => .trying ⟨⟨[7], ⟨1, [2]⟩⟩, [2]⟩⟩ :=
  ⟨exDb_reachable, fun _ => ⟨_, exDb, rfl, exDb_reachable, rfl⟩⟩

end Bonsai.Store
