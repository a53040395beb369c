import Verif.KV.C40

/-!
# C42: expirations survive restart

A reopened store has an empty expiration queue; a background job, the expiration loader, fills it from
a snapshot of the entries.  The loader holds the state lock for the snapshot and again for each key, and
nothing else waits for it.
-/
set_option linter.unusedSimpArgs false
set_option linter.unusedSectionVars false

namespace Bonsai.KV
open Bonsai

variable {F : Type} [FloatOps F]

/-! ## Model -/

/-- Lay pending writes over a snapshot: one loop of `all_key_value_entries`, keyvalue.rs:100-110 and
112-119. -/
def layer : List (Bytes × Option (Entry F)) → OMap (Entry F) → OMap (Entry F)
  | [], m => m
  | (k, some e) :: r, m => layer r (m.set k e)
  | (k, none) :: r, m => layer r (m.remove k)

/-- `all_key_value_entries`, keyvalue.rs:68-120. -/
def St.entries (st : St F) : OMap (Entry F) :=
  layer st.dirty.list (layer (match st.persisting with | some b => b.list | none => []) st.disk)

/-- The entries the loader will load: the condition of keyvalue.rs:852-853. -/
def St.toLoad (st : St F) (launched : Nat) : List (Bytes × Nat) :=
  st.entries.list.filterMap fun p =>
    if p.2.lastUpdated < launched then p.2.expiration.map fun t => (p.1, t) else none

/-- Where the loader is: before its snapshot, or with some keys left (none: it is done). -/
inductive Loader where
  | waiting
  | loading (rest : List (Bytes × Nat))

/-- One step of a store with its loader.  `launched` is the time at which the loader was created
(tasks.rs:184-196). -/
inductive OStep (launched : Nat) : St F × Loader → List (Event F) → St F × Loader → Prop where
  /-- Anything else. -/
  | base {st st' : St F} {l : Loader} {e : Event F} {a : Option (Except Err (Output F))}
      (s : Step st e a st') : OStep launched (st, l) [e] (st', l)
  /-- The snapshot, keyvalue.rs:852. -/
  | snapshot (st : St F) : OStep launched (st, .waiting) [] (st, .loading (st.toLoad launched))
  /-- One key, keyvalue.rs:854-856 with `update_key_expiration` 352-418. -/
  | load (st : St F) (k : Bytes) (t : Nat) (rest : List (Bytes × Nat)) (now : Nat) :
      OStep launched (st, .loading ((k, t) :: rest)) [] ((st.updateExpiration k (some t)).updateTarget now, .loading rest)

/-! ## Specification of the partial theorem: the races that are excluded -/

/-- The event stores or removes the entry of `k` (increment and decrement keep the expiration and do
not count). -/
def Overwrites (k : Bytes) : Event F → Prop
  | .op _ ⟨k', .set _⟩ => k' = k
  | .op _ ⟨k', .get true⟩ => k' = k
  | .op _ ⟨k', .delete⟩ => k' = k
  | _ => False

/-- Executions of the reopened store in which (1) the clock never reads earlier than `launched` and
(2) no key is overwritten between the loader's snapshot and the moment its expiration is loaded. -/
inductive ORun (launched : Nat) : St F × Loader → List (Event F) → St F × Loader → Prop where
  | nil (s : St F × Loader) : ORun launched s [] s
  | snoc {s s' s'' : St F × Loader} {es es' : List (Event F)} (r : ORun launched s es s')
      (o : OStep launched s' es' s'')
      (hclock : ∀ e ∈ es', ∀ t, e.time = some t → launched ≤ t)
      (hrace : ∀ rest, s'.2 = .loading rest → ∀ e ∈ es', ∀ k t, (k, t) ∈ rest → ¬ Overwrites k e) :
      ORun launched s (es ++ es') s''

/-! ## The snapshot -/

theorem layer_get (l : List (Bytes × Option (Entry F))) (hs : SortedL l) (m : OMap (Entry F)) (k : Bytes) :
    (layer l m).get k = match lookupL l k with | some v => v | none => m.get k := by
  induction l generalizing m with
  | nil => rfl
  | cons p l ih =>
    obtain ⟨x, w⟩ := p
    obtain ⟨h1, h2⟩ := List.pairwise_cons.mp hs
    cases w with
    | some e =>
      simp only [layer, lookupL]
      rw [ih h2]
      by_cases hk : x = k
      · subst hk; rw [lookupL_none_of_lt h1]; simp
      · simp [hk, OMap.get_set_ne _ hk]
    | none =>
      simp only [layer, lookupL]
      rw [ih h2]
      by_cases hk : x = k
      · subst hk; rw [lookupL_none_of_lt h1]; simp
      · simp [hk, OMap.get_remove_ne _ hk]

theorem entries_get (st : St F) (k : Bytes) : st.entries.get k = st.get k := by
  simp only [St.entries]
  rw [layer_get _ st.dirty.sorted]
  simp only [St.get]
  show (match st.dirty.get k with | some v => v | none => _) = _
  cases st.dirty.get k with
  | some v => rfl
  | none =>
    simp only
    cases hp : st.persisting with
    | none => rfl
    | some b =>
      simp only [Option.bind_some]
      rw [layer_get _ b.sorted]
      show (match b.get k with | some v => v | none => _) = _
      cases b.get k <;> rfl

theorem mem_toLoad {st : St F} {launched : Nat} {k : Bytes} {t : Nat} :
    (k, t) ∈ st.toLoad launched ↔
      ∃ e, st.get k = some e ∧ e.expiration = some t ∧ e.lastUpdated < launched := by
  simp only [St.toLoad, List.mem_filterMap]
  constructor
  · rintro ⟨⟨k', e⟩, hm, h⟩
    split at h
    · rename_i hlt
      simp only [Option.map_eq_some_iff, Prod.mk.injEq] at h
      obtain ⟨t', ht, rfl, rfl⟩ := h
      rw [OMap.mem_list_iff, entries_get] at hm
      exact ⟨e, hm, ht, hlt⟩
    · cases h
  · rintro ⟨e, hg, ht, hlt⟩
    refine ⟨(k, e), ?_, ?_⟩
    · rw [OMap.mem_list_iff, entries_get]; exact hg
    · simp [hlt, ht]

theorem toLoad_nodup (st : St F) (launched : Nat) : ((st.toLoad launched).map (·.1)).Nodup := by
  have h := st.entries.keys_nodup
  have sub : ∀ l : List (Bytes × Entry F), ((l.filterMap fun p =>
      if p.2.lastUpdated < launched then p.2.expiration.map fun t => (p.1, t) else none).map (·.1)).Sublist
      (l.map (·.1)) := by
    intro l
    induction l with
    | nil => exact List.Sublist.slnil
    | cons p l ih =>
      simp only [List.filterMap_cons, List.map_cons]
      split
      · exact ih.cons _
      · rename_i q hq
        split at hq
        · simp only [Option.map_eq_some_iff] at hq
          obtain ⟨t, _, rfl⟩ := hq
          exact ih.cons_cons _
        · cases hq
  exact (sub _).nodup h

/-! ## Per-key facts -/

theorem removeExpired_queue {st : St F} (h : QueueInv st.expiring st.order) (now : Nat) :
    QueueInv (st.removeExpired now).expiring (st.removeExpired now).order ∧
    (∀ k, (st.removeExpired now).expiring.get k =
      match st.expiring.get k with | some t => if t ≤ now then none else some t | none => none) ∧
    (∀ k, (st.removeExpired now).get k =
      match st.expiring.get k with | some t => if t ≤ now then none else st.get k | none => st.get k) := by
  obtain ⟨i1, i2, i3⟩ := removeLoop_spec now st.order st.expiring st.dirty h
  refine ⟨i1, i2, ?_⟩
  intro k
  have hd : (st.removeExpired now).dirty.get k =
    match st.expiring.get k with | some t => if t ≤ now then some none else st.dirty.get k | none => st.dirty.get k := i3 k
  have hkeep : (st.removeExpired now).dirty.get k = st.dirty.get k →
      (st.removeExpired now).get k = st.get k := by
    intro he
    simp only [St.get, he]
    rfl
  cases hx : st.expiring.get k with
  | none => rw [hx] at hd; exact hkeep hd
  | some t =>
    rw [hx] at hd
    simp only at hd ⊢
    split
    · rename_i hle
      rw [if_pos hle] at hd
      simp only [St.get, hd]
    · rename_i hle
      rw [if_neg hle] at hd
      exact hkeep hd

/-- What a command can do to a key. -/
inductive KeyEffect (st st' : St F) (now : Nat) (k : Bytes) : Prop where
  | same (hg : st'.get k = st.get k) (he : st'.expiring.get k = st.expiring.get k)
  | stored (he : st'.expiring.get k = (st'.get k).bind (·.expiration))
      (hu : ∀ e, st'.get k = some e → e.lastUpdated = now)
  | renumbered (he : st'.expiring.get k = st.expiring.get k)
      (hg : (st'.get k).bind (·.expiration) = (st.get k).bind (·.expiration))
      (hs : ∀ e', st.get k = some e' → ∃ e, st'.get k = some e ∧ e.lastUpdated = e'.lastUpdated)
      (hn : st.get k = none → ∃ e, st'.get k = some e)

theorem write_effect (st : St F) (now : Nat) (k : Bytes) (x : Option (Entry F))
    (hu : ∀ e, x = some e → e.lastUpdated = now) (k' : Bytes) :
    KeyEffect st ((st.updateExpiration k (x.bind (·.expiration))).writeDirty k x) now k' ∧
    (k ≠ k' → ((st.updateExpiration k (x.bind (·.expiration))).writeDirty k x).get k' = st.get k' ∧
      ((st.updateExpiration k (x.bind (·.expiration))).writeDirty k x).expiring.get k' = st.expiring.get k') := by
  have hg := writeDirty_get (st.updateExpiration k (x.bind (·.expiration))) k x k'
  have he : ((st.updateExpiration k (x.bind (·.expiration))).writeDirty k x).expiring.get k' =
      if k = k' then x.bind (·.expiration) else st.expiring.get k' := updateExpiration_expiring k _ k'
  rw [updateExpiration_get] at hg
  by_cases hk : k = k'
  · subst hk
    simp only [if_true] at hg he
    refine ⟨.stored (by rw [he, hg]) (fun e h => hu e (by rw [← hg]; exact h)), fun h => absurd rfl h⟩
  · simp only [hk, if_false] at hg he
    exact ⟨.same hg he, fun _ => ⟨hg, he⟩⟩

/-- The outcome of a command: the queue stays well formed, every key is affected in one of the three
ways, and a key that is not overwritten keeps its expiration and its place in the queue. -/
structure ExecEffect (st : St F) (now : Nat) (op : KeyOp F) (st' : St F) : Prop where
  queue : QueueInv st'.expiring st'.order
  effect : ∀ k, KeyEffect st st' now k
  kept : ∀ k ck, ¬ Overwrites k (.op ck op) →
    st'.expiring.get k = st.expiring.get k ∧
    (st'.get k).bind (·.expiration) = (st.get k).bind (·.expiration) ∧
    (∀ e', st.get k = some e' → ∃ e, st'.get k = some e ∧ e.lastUpdated = e'.lastUpdated)
  unwritten : ∀ k ck, ¬ Writes k (.op ck op) →
    st'.get k = st.get k ∧ st'.expiring.get k = st.expiring.get k

theorem effect_refl {st : St F} (h : QueueInv st.expiring st.order) (now : Nat) (op : KeyOp F) :
    ExecEffect st now op st :=
  ⟨h, fun _ => .same rfl rfl, fun _ _ _ => ⟨rfl, rfl, fun e' h => ⟨e', h, rfl⟩⟩, fun _ _ _ => ⟨rfl, rfl⟩⟩

theorem effect_write {st : St F} (h : QueueInv st.expiring st.order) (now : Nat) (op : KeyOp F)
    (x : Option (Entry F)) (hu : ∀ e, x = some e → e.lastUpdated = now)
    (ho : ∀ ck, Overwrites op.key (.op ck op)) (hw : ∀ ck, Writes op.key (.op ck op)) :
    ExecEffect st now op ((st.updateExpiration op.key (x.bind (·.expiration))).writeDirty op.key x) := by
  refine ⟨updateExpiration_queue h op.key _, fun k => (write_effect st now op.key x hu k).1, ?_, ?_⟩
  · intro k ck hn
    have hk : op.key ≠ k := by rintro rfl; exact hn (ho ck)
    obtain ⟨h1, h2⟩ := (write_effect st now op.key x hu k).2 hk
    rw [h1, h2]
    exact ⟨rfl, rfl, fun e' h => ⟨e', h, rfl⟩⟩
  · intro k ck hn
    have hk : op.key ≠ k := by rintro rfl; exact hn (hw ck)
    exact (write_effect st now op.key x hu k).2 hk

theorem effect_set {st : St F} (h : QueueInv st.expiring st.order) (now : Nat) (k : Bytes)
    (c : SetCommand F) : ExecEffect st now ⟨k, .set c⟩ (st.execSet k c now).2 := by
  simp only [St.execSet]
  cases c.value.validate with
  | error e => exact effect_refl h now _
  | ok v =>
    generalize (if c.check.isSome = true ∨ c.returnPrevious = true ∨ c.keepExisting = true then
      some (st.get k) else none) = f
    simp only
    have key : ∀ x : Option Nat, ExecEffect st now ⟨k, .set c⟩
        ((st.updateExpiration k x).writeDirty k (some ⟨v, x, now⟩)) := fun x =>
      effect_write h now ⟨k, .set c⟩ (some ⟨v, x, now⟩) (by rintro e ⟨⟩; rfl) (fun _ => rfl) (fun _ => rfl)
    split
    · cases f with
      | some e =>
        simp only [set_eq]
        split
        · exact key _
        · split <;> exact key _
      | none =>
        simp only [replace_eq]
        split
        · exact key _
        · split <;> exact key _
    · exact effect_refl h now _

theorem effect_numeric {st : St F} (h : QueueInv st.expiring st.order) (now : Nat) (op : KeyOp F)
    (hw : ∀ ck, Writes op.key (.op ck op)) (a : Numeric F) (s : Bool)
    (f : Numeric F → Numeric F → Bool → Numeric F) :
    ExecEffect st now op (st.execNumeric op.key a s now f).2 := by
  simp only [St.execNumeric]
  split
  · split
    · exact effect_refl h now op
    · rename_i n _
      generalize hx : (Value.numeric n : Value F) = val
      have hg := fun k' => writeDirty_get st op.key
        (some { (st.get op.key).getD ⟨.numeric (.unsigned 0), none, now⟩ with value := val }) k'
      have hexp : ((some { (st.get op.key).getD ⟨.numeric (.unsigned 0), none, now⟩ with value := val } :
          Option (Entry F)).bind (·.expiration)) = (st.get op.key).bind (·.expiration) := by
        cases st.get op.key <;> rfl
      have heff : ∀ k, KeyEffect st (st.writeDirty op.key
          (some { (st.get op.key).getD ⟨.numeric (.unsigned 0), none, now⟩ with value := val })) now k ∧
          (st.writeDirty op.key
          (some { (st.get op.key).getD ⟨.numeric (.unsigned 0), none, now⟩ with value := val })).expiring.get k =
            st.expiring.get k ∧
          ((st.writeDirty op.key
          (some { (st.get op.key).getD ⟨.numeric (.unsigned 0), none, now⟩ with value := val })).get k).bind
            (·.expiration) = (st.get k).bind (·.expiration) ∧
          (∀ e', st.get k = some e' → ∃ e, (st.writeDirty op.key
          (some { (st.get op.key).getD ⟨.numeric (.unsigned 0), none, now⟩ with value := val })).get k = some e ∧
            e.lastUpdated = e'.lastUpdated) := by
        intro k
        by_cases hk : op.key = k
        · subst hk
          have hg' := hg op.key
          simp only [if_true] at hg'
          have hs : ∀ e', st.get op.key = some e' → ∃ e, (st.writeDirty op.key
              (some { (st.get op.key).getD ⟨.numeric (.unsigned 0), none, now⟩ with value := val })).get op.key
              = some e ∧ e.lastUpdated = e'.lastUpdated := by
            intro e' he'
            exact ⟨_, hg', by rw [he']; rfl⟩
          refine ⟨.renumbered rfl (by rw [hg', hexp]) hs (fun _ => ⟨_, hg'⟩), rfl, by rw [hg', hexp], hs⟩
        · have hg' := hg k
          simp only [hk, if_false] at hg'
          exact ⟨.same hg' rfl, rfl, by rw [hg'], fun e' he' => ⟨e', by rw [hg', he'], rfl⟩⟩
      refine ⟨h, fun k => (heff k).1, fun k _ _ => (heff k).2, ?_⟩
      intro k ck hn
      have hk : op.key ≠ k := by rintro rfl; exact hn (hw ck)
      have hg' := hg k
      simp only [hk, if_false] at hg'
      exact ⟨hg', rfl⟩
  · exact effect_refl h now op

theorem exec_effect {st : St F} (h : QueueInv st.expiring st.order) (now : Nat) (op : KeyOp F) :
    ExecEffect st now op (st.exec now op).2 := by
  rcases op with ⟨k, c⟩
  cases c with
  | set c => exact effect_set h now k c
  | get d =>
    cases d with
    | false => exact effect_refl h now _
    | true =>
      simp only [St.exec, remove_eq]
      exact effect_write h now ⟨k, .get true⟩ none (by rintro e ⟨⟩) (fun _ => rfl) (fun _ => rfl)
  | delete =>
    simp only [St.exec, remove_eq]
    exact effect_write h now ⟨k, .delete⟩ none (by rintro e ⟨⟩) (fun _ => rfl) (fun _ => rfl)
  | increment a s => exact effect_numeric h now ⟨k, .increment a s⟩ (fun _ => rfl) a s increment
  | decrement a s => exact effect_numeric h now ⟨k, .decrement a s⟩ (fun _ => rfl) a s decrement

/-! ## The invariant while the loader works -/

/-- The queue knows the expiration of `k`. -/
def Tracked (st : St F) (k : Bytes) : Prop := st.expiring.get k = (st.get k).bind (·.expiration)

/-- An entry with an expiration was stored after the loader was launched. -/
def Fresh (launched : Nat) (st : St F) (k : Bytes) : Prop :=
  ∀ e, st.get k = some e → e.expiration.isSome → launched ≤ e.lastUpdated

/-- The queue does not know the expiration `t` of `k` yet. -/
def Untracked (launched : Nat) (st : St F) (k : Bytes) (t : Nat) : Prop :=
  st.expiring.get k = none ∧ ∃ e, st.get k = some e ∧ e.expiration = some t ∧ e.lastUpdated < launched

/-- What is known about one key. -/
def KeyInv (launched : Nat) (st : St F) (l : Loader) (k : Bytes) : Prop :=
  match l with
  | .waiting => (Tracked st k ∧ Fresh launched st k) ∨ ∃ t, Untracked launched st k t
  | .loading rest =>
    (∃ t, (k, t) ∈ rest ∧ Untracked launched st k t) ∨ ((∀ t, (k, t) ∉ rest) ∧ Tracked st k)

structure LInv (launched : Nat) (s : St F × Loader) : Prop where
  persist : PersistInv s.1
  queue : QueueInv s.1.expiring s.1.order
  keys : ∀ k, KeyInv launched s.1 s.2 k
  nodup : ∀ rest, s.2 = .loading rest → (rest.map (·.1)).Nodup

theorem keyInv_congr {launched : Nat} {st st' : St F} {l : Loader} {k : Bytes}
    (hg : st'.get k = st.get k) (he : st'.expiring.get k = st.expiring.get k)
    (h : KeyInv launched st l k) : KeyInv launched st' l k := by
  cases l with
  | waiting =>
    simp only [KeyInv, Tracked, Fresh, Untracked, hg, he] at h ⊢
    exact h
  | loading rest =>
    simp only [KeyInv, Tracked, Fresh, Untracked, hg, he] at h ⊢
    exact h

theorem keyInv_expire {launched : Nat} {st : St F} {l : Loader} {k : Bytes}
    (hq : QueueInv st.expiring st.order) (now : Nat) (h : KeyInv launched st l k) :
    KeyInv launched (st.removeExpired now) l k := by
  obtain ⟨_, he, hg⟩ := removeExpired_queue hq now
  have tr : Tracked st k → Tracked (st.removeExpired now) k := by
    intro ht
    simp only [Tracked] at ht ⊢
    rw [he, hg]
    cases hx : st.expiring.get k with
    | none => simp only; rw [← ht, hx]
    | some t =>
      simp only
      split
      · rfl
      · rw [← ht, hx]
  have fr : Fresh launched st k → Fresh launched (st.removeExpired now) k := by
    intro hf e hge
    rw [hg] at hge
    cases hx : st.expiring.get k with
    | none => rw [hx] at hge; exact hf e hge
    | some t =>
      rw [hx] at hge
      simp only at hge
      split at hge
      · cases hge
      · exact hf e hge
  have un : ∀ t, Untracked launched st k t → Untracked launched (st.removeExpired now) k t := by
    rintro t ⟨h1, e, h2, h3, h4⟩
    refine ⟨by rw [he, h1], e, ?_, h3, h4⟩
    rw [hg, h1]; exact h2
  cases l with
  | waiting =>
    rcases h with ⟨h1, h2⟩ | ⟨t, h⟩
    · exact .inl ⟨tr h1, fr h2⟩
    · exact .inr ⟨t, un t h⟩
  | loading rest =>
    rcases h with ⟨t, h1, h2⟩ | ⟨h1, h2⟩
    · exact .inl ⟨t, h1, un t h2⟩
    · exact .inr ⟨h1, tr h2⟩

theorem keyInv_exec {launched : Nat} {st st' : St F} {l : Loader} {k : Bytes} {now : Nat} {op : KeyOp F}
    (hx : ExecEffect st now op st') (hnow : launched ≤ now)
    (hrace : ∀ rest, l = .loading rest → ∀ t, (k, t) ∈ rest → ∀ ck, ¬ Overwrites k (.op ck op))
    (h : KeyInv launched st l k) : KeyInv launched st' l k := by
  have un : ∀ t, (∀ ck, ¬ Overwrites k (.op ck op)) → Untracked launched st k t → Untracked launched st' k t := by
    rintro t hn ⟨h1, e, h2, h3, h4⟩
    obtain ⟨k1, k2, k3⟩ := hx.kept k ⟨0, 0, 0⟩ (hn _)
    obtain ⟨e2, he2, hl2⟩ := k3 e h2
    refine ⟨by rw [k1, h1], e2, he2, ?_, by omega⟩
    rw [he2, h2] at k2
    simp only [Option.bind_some] at k2
    rw [k2, h3]
  have tr : Tracked st k → Tracked st' k := by
    intro ht
    simp only [Tracked] at ht ⊢
    cases hx.effect k with
    | same hg he => rw [he, hg, ht]
    | stored he hu => exact he
    | renumbered he hg hs hn => rw [he, hg, ht]
  cases l with
  | loading rest =>
    rcases h with ⟨t, h1, h2⟩ | ⟨h1, h2⟩
    · exact .inl ⟨t, h1, un t (hrace rest rfl t h1) h2⟩
    · exact .inr ⟨h1, tr h2⟩
  | waiting =>
    rcases h with ⟨h1, h2⟩ | ⟨t, h⟩
    · refine .inl ⟨tr h1, ?_⟩
      intro e hge hse
      cases hx.effect k with
      | same hg he => exact h2 e (by rw [← hg]; exact hge) hse
      | stored he hu => rw [hu e hge]; exact hnow
      | renumbered he hg hs hn =>
        cases hst : st.get k with
        | none =>
          rw [hge, hst] at hg
          simp only [Option.bind_some, Option.bind_none] at hg
          rw [hg] at hse; cases hse
        | some e' =>
          obtain ⟨e2, he2, hl2⟩ := hs e' hst
          rw [hge] at he2
          cases he2
          rw [hge, hst] at hg
          simp only [Option.bind_some] at hg
          rw [hl2]
          exact h2 e' hst (by rw [← hg]; exact hse)
    · cases hx.effect k with
      | same hg he =>
        refine .inr ⟨t, ?_⟩
        obtain ⟨h1, e, h2, h3, h4⟩ := h
        exact ⟨by rw [he, h1], e, by rw [hg, h2], h3, h4⟩
      | stored he hu =>
        refine .inl ⟨he, ?_⟩
        intro e hge _
        rw [hu e hge]; exact hnow
      | renumbered he hg hs hn =>
        refine .inr ⟨t, ?_⟩
        obtain ⟨h1, e, h2, h3, h4⟩ := h
        obtain ⟨e2, he2, hl2⟩ := hs e h2
        refine ⟨by rw [he, h1], e2, he2, ?_, by omega⟩
        rw [he2, h2] at hg
        simp only [Option.bind_some] at hg
        rw [hg, h3]

theorem Quiet.queue {a b : St F} (h : Quiet a b) (q : QueueInv a.expiring a.order) :
    QueueInv b.expiring b.order := by rw [h.expiring, h.order]; exact q

theorem linv_base {launched : Nat} {st st' : St F} {l : Loader} {e : Event F}
    {a : Option (Except Err (Output F))} (h : LInv launched (st, l)) (s : Step st e a st')
    (hclock : ∀ t, e.time = some t → launched ≤ t)
    (hrace : ∀ rest, l = .loading rest → ∀ k t, (k, t) ∈ rest → ¬ Overwrites k e) :
    LInv launched (st', l) := by
  obtain ⟨hp, hq, hk, hn⟩ := h
  have quiet : Quiet st st' → PersistInv st' → LInv launched (st', l) := fun q p =>
    ⟨p, q.queue hq, fun k => keyInv_congr (q.get k) (by show st'.expiring.get k = _; rw [q.expiring]) (hk k), hn⟩
  cases s with
  | op ck o =>
    obtain ⟨r1, _, _⟩ := removeExpired_queue hq ck.now
    have hx := exec_effect r1 ck.now o
    have hr : ∀ k rest, l = .loading rest → ∀ t, (k, t) ∈ rest → ∀ ck', ¬ Overwrites k (.op ck' o) := by
      intro k rest hl t hm ck' hov
      refine hrace rest hl k t hm ?_
      rcases o with ⟨k', c⟩
      cases c with
      | get d => cases d <;> exact hov
      | _ => exact hov
    have hkeys : ∀ k, KeyInv launched ((st.removeExpired ck.now).exec ck.now o).2 l k := fun k =>
      keyInv_exec hx (hclock ck.now rfl) (hr k) (keyInv_expire hq ck.now (hk k))
    have hpers := (perform_stages hp ck o).2
    have hfinal : Quiet ((st.removeExpired ck.now).exec ck.now o).2 (st.perform ck o).2 := by
      simp only [St.perform]
      cases hres : (st.removeExpired ck.now).exec ck.now o with
      | mk a st2 =>
        cases a with
        | error e => exact .refl _
        | ok v => exact settle_quiet st2 ck
    exact ⟨hpers, hfinal.queue hx.queue, fun k => keyInv_congr (hfinal.get k)
      (by show (st.perform ck o).2.expiring.get k = _; rw [hfinal.expiring]) (hkeys k), hn⟩
  | tick ck =>
    obtain ⟨r1, _, _⟩ := removeExpired_queue hq ck.now
    have q := settle_quiet (st.removeExpired ck.now) ck
    exact ⟨settle_persist ck ((SameBack.removeExpired st ck.now).persist hp), q.queue r1,
      fun k => keyInv_congr (q.get k) (by show (st.tick ck).expiring.get k = _; rw [← q.expiring]; rfl)
        (keyInv_expire hq ck.now (hk k)), hn⟩
  | write b hw hb => exact quiet (write_quiet hb) (write_persist hb)
  | fail hw =>
    have := (lstep_disk hp (.base (Step.fail st hw))).1
    exact quiet ⟨fun _ => rfl, rfl, rfl⟩ this
  | finish now hw => exact quiet (finish_quiet hp hw now) (finish_persist now)
  | shutdown now => exact quiet (beginShutdown_quiet st now) (beginShutdown_persist now hp)

theorem linv_step {launched : Nat} {s s' : St F × Loader} {es : List (Event F)} (h : LInv launched s)
    (o : OStep launched s es s') (hclock : ∀ e ∈ es, ∀ t, e.time = some t → launched ≤ t)
    (hrace : ∀ rest, s.2 = .loading rest → ∀ e ∈ es, ∀ k t, (k, t) ∈ rest → ¬ Overwrites k e) :
    LInv launched s' := by
  cases o with
  | base s => exact linv_base h s (hclock _ (by simp)) (fun rest hl => hrace rest hl _ (by simp))
  | snapshot st =>
    refine ⟨h.persist, h.queue, ?_, ?_⟩
    · intro k
      rcases h.keys k with ⟨h1, h2⟩ | ⟨t, h3⟩
      · refine .inr ⟨?_, h1⟩
        intro t hm
        obtain ⟨e, he, ht, hlt⟩ := mem_toLoad.mp hm
        have := h2 e he (by rw [ht]; rfl)
        omega
      · refine .inl ⟨t, ?_, h3⟩
        obtain ⟨_, e, he, ht, hlt⟩ := h3
        exact mem_toLoad.mpr ⟨e, he, ht, hlt⟩
    · rintro rest ⟨⟩
      exact toLoad_nodup st launched
  | load st k t rest now =>
    obtain ⟨hp, hq, hk, hn⟩ := h
    have hnd := hn _ rfl
    simp only [List.map_cons, List.nodup_cons] at hnd
    refine ⟨(lstep_disk hp (.load st k (some t) now)).1, updateExpiration_queue hq k (some t), ?_, ?_⟩
    · intro k'
      by_cases hkk : k = k'
      · subst hkk
        have hnot : ∀ t', (k, t') ∉ rest := fun t' hm => hnd.1 (List.mem_map.mpr ⟨_, hm, rfl⟩)
        refine .inr ⟨hnot, ?_⟩
        rcases hk k with ⟨t', hm, h1, e, h2, h3, h4⟩ | ⟨hno, _⟩
        · simp only [List.mem_cons, Prod.mk.injEq, true_and] at hm
          rcases hm with rfl | hm
          · simp only [Tracked]
            show (st.updateExpiration k (some t')).expiring.get k = ((st.updateExpiration k (some t')).get k).bind _
            rw [updateExpiration_expiring, updateExpiration_get, h2]
            simp [h3]
          · exact absurd hm (hnot t')
        · exact absurd (by simp) (hno t)
      · have he : ((st.updateExpiration k (some t)).updateTarget now).expiring.get k' = st.expiring.get k' := by
          show (st.updateExpiration k (some t)).expiring.get k' = _
          rw [updateExpiration_expiring]; simp [hkk]
        have hg : ((st.updateExpiration k (some t)).updateTarget now).get k' = st.get k' :=
          updateExpiration_get (st := st) k (some t) k'
        refine keyInv_congr (st := st) (l := .loading rest) hg he ?_
        rcases hk k' with ⟨t', hm, hu⟩ | ⟨hno, ht⟩
        · simp only [List.mem_cons, Prod.mk.injEq] at hm
          rcases hm with ⟨hh, _⟩ | hm
          · exact absurd hh.symm hkk
          · exact .inl ⟨t', hm, hu⟩
        · exact .inr ⟨fun t' hm => hno t' (by simp [hm]), ht⟩
    · rintro rest' ⟨⟩
      exact hnd.2

theorem linv_run {launched : Nat} {s s' : St F × Loader} {es : List (Event F)} (h : LInv launched s)
    (r : ORun launched s es s') : LInv launched s' := by
  induction r with
  | nil => exact h
  | snoc r o hclock hrace ih => exact linv_step ih o hclock hrace

theorem linv_open (p : Persistence) (t0 : Nat) (disk : OMap (Entry F)) (log : List (List (Bytes × Bool)))
    (launched : Nat) (hd : ∀ k e, disk.get k = some e → e.lastUpdated < launched) :
    LInv launched (St.new p t0 disk log, .waiting) := by
  refine ⟨⟨by simp [St.new], by intro hw; simp [St.new] at hw⟩, ⟨List.nodup_nil, by intro k; simp [St.new], List.Pairwise.nil⟩, ?_, ?_⟩
  · intro k
    have hg : (St.new p t0 disk log).get k = disk.get k := rfl
    have he : (St.new p t0 disk log).expiring.get k = none := rfl
    simp only [KeyInv, Tracked, Fresh, Untracked, hg, he]
    cases hk : disk.get k with
    | none => left; simp
    | some e =>
      cases hx : e.expiration with
      | none => left; simp [hx]
      | some t =>
        right
        exact ⟨t, trivial, e, rfl, hx, hd k e hk⟩
  · rintro rest ⟨⟩

theorem linv_done {launched : Nat} {st : St F} (h : LInv launched (st, .loading [])) : Inv st := by
  obtain ⟨hp, hq, hk, _⟩ := h
  refine ⟨⟨?_, hq.nodup, hq.queued, hq.sorted⟩, hp⟩
  intro k
  rcases hk k with ⟨t, hm, _⟩ | ⟨_, ht⟩
  · cases hm
  · exact ht

/-! ## C42 -/

/-- **C42, partial.** Reopen a store on any disk, let the loader and everything else interleave in any
way in which no key is overwritten between the loader's snapshot and the load of that key, and let the
loader finish.  From then on the store answers as the map with expirations of C37 and C38, starting
from its present contents: every expiration, loaded or set since, is honoured, and keys without one do
not expire.

Missing: answers before the loader is done (`C42_violated_expired_key_readable`), and the excluded race
(`C42_violated_overwritten_key_expires`). -/
theorem C42_expirations_after_loading_partial (p : Persistence) (t0 : Nat) (disk : OMap (Entry F))
    (log : List (List (Bytes × Bool))) (launched : Nat)
    (hd : ∀ k e, disk.get k = some e → e.lastUpdated < launched) {es es' : List (Event F)} {st st' : St F}
    {as : List (Except Err (Output F))}
    (r : ORun launched (St.new p t0 disk log, .waiting) es (st, .loading []))
    (r' : Run st es' as st') : as = (Spec.runEvents st.look es').1 :=
  (run_refines (linv_done (linv_run (linv_open p t0 disk log launched hd) r)) r').1

/-- What becomes of a key nobody writes while the loader works. -/
theorem untouched_during_loading {launched : Nat} {st₀ : St F} {l₀ : Loader} {s : St F × Loader}
    {es : List (Event F)} (h : LInv launched (st₀, l₀)) (r : ORun launched (st₀, l₀) es s) {k : Bytes}
    {e₀ : Entry F} {t : Nat} (h₀ : st₀.get k = some e₀) (ht : e₀.expiration = some t)
    (hw : ∀ e ∈ es, ¬ Writes k e) :
    s.1.get k = some e₀ ∨ (s.1.get k = none ∧ ∃ e ∈ es, Reaches t e) := by
  generalize hs₀ : (st₀, l₀) = s₀ at r h
  induction r with
  | nil => subst hs₀; exact .inl h₀
  | @snoc s' s'' es es' r o hclock hrace ih =>
    have hi := ih (fun e he => hw e (by simp [he]))
    have hl := linv_run h r
    have old : s'.1.get k = none ∧ (∃ e ∈ es, Reaches t e) → s''.1.get k = s'.1.get k →
        s''.1.get k = some e₀ ∨ (s''.1.get k = none ∧ ∃ e ∈ es ++ es', Reaches t e) := by
      rintro ⟨h1, e, he, hre⟩ hg
      exact .inr ⟨by rw [hg, h1], e, by simp [he], hre⟩
    have conclude : s''.1.get k = s'.1.get k →
        s''.1.get k = some e₀ ∨ (s''.1.get k = none ∧ ∃ e ∈ es ++ es', Reaches t e) := by
      intro hg
      rcases hi with h1 | h1
      · exact .inl (by rw [hg, h1])
      · exact old h1 hg
    -- expiry at `now`
    have expiry : ∀ (st : St F) (l : Loader) (now : Nat) (e : Event F), s' = (st, l) → e ∈ es' → e.time = some now →
        s''.1.get k = (st.removeExpired now).get k →
        s''.1.get k = some e₀ ∨ (s''.1.get k = none ∧ ∃ e ∈ es ++ es', Reaches t e) := by
      rintro st l now e rfl hm htime hg
      obtain ⟨_, he, hge⟩ := removeExpired_queue hl.queue now
      rw [hge] at hg
      cases hx : st.expiring.get k with
      | none => rw [hx] at hg; exact conclude hg
      | some t' =>
        rw [hx] at hg
        simp only at hg
        split at hg
        · rename_i hle
          refine .inr ⟨hg, ?_⟩
          rcases hi with h1 | ⟨_, e', he', hre'⟩
          · -- the queue's time is the entry's
            have h1' : st.get k = some e₀ := h1
            have htr : t' = t := by
              have hki := hl.keys k
              cases l with
              | waiting =>
                rcases hki with ⟨ht1, _⟩ | ⟨_, hu, _⟩
                · simp only [Tracked] at ht1
                  rw [hx, h1'] at ht1
                  simp only [Option.bind_some, ht] at ht1
                  cases ht1; rfl
                · rw [hx] at hu; cases hu
              | loading rest =>
                rcases hki with ⟨_, _, hu, _⟩ | ⟨_, ht1⟩
                · rw [hx] at hu; cases hu
                · simp only [Tracked] at ht1
                  rw [hx, h1'] at ht1
                  simp only [Option.bind_some, ht] at ht1
                  cases ht1; rfl
            subst htr
            exact ⟨e, by simp [hm], now, htime, hle⟩
          · exact ⟨e', by simp [he'], hre'⟩
        · exact conclude hg
    cases o with
    | @base st st' l ev a s =>
      cases s with
      | op ck o =>
        refine expiry st l ck.now _ rfl (List.mem_singleton.mpr rfl) rfl ?_
        obtain ⟨r1, _, _⟩ := removeExpired_queue hl.queue ck.now
        have hx := exec_effect r1 ck.now o
        have hu := (hx.unwritten k ck (hw _ (by simp))).1
        show (st.perform ck o).2.get k = _
        simp only [St.perform]
        cases hres : (st.removeExpired ck.now).exec ck.now o with
        | mk a st2 =>
          rw [hres] at hu
          cases a with
          | error e => exact hu
          | ok v => rw [← hu]; exact (settle_quiet st2 ck).get k
      | tick ck =>
        refine expiry st l ck.now _ rfl (List.mem_singleton.mpr rfl) rfl ?_
        exact (settle_quiet (st.removeExpired ck.now) ck).get k
      | write b hw hb => exact conclude ((write_quiet hb).get k)
      | fail hw => exact conclude rfl
      | finish now hwr => exact conclude ((finish_quiet hl.persist hwr now).get k)
      | shutdown now => exact conclude ((beginShutdown_quiet st now).get k)
    | snapshot st => exact conclude rfl
    | load st k' t' rest now => exact conclude (updateExpiration_get (st := st) k' (some t') k)

/-- **C42, partial.** After reopening and loading, a key whose entry on disk expires at `t`, and that
nobody writes, is answered until a clock reading reaches `t`, and never from then on. -/
theorem C42_disk_expiration_is_honoured_partial (p : Persistence) (t0 : Nat) (disk : OMap (Entry F))
    (log : List (List (Bytes × Bool))) (launched : Nat)
    (hd : ∀ k e, disk.get k = some e → e.lastUpdated < launched) {es after : List (Event F)} {st st' : St F}
    {ck : Clock} {as : List (Except Err (Output F))} {k : Bytes} {e₀ : Entry F} {t : Nat}
    (h₀ : disk.get k = some e₀) (ht : e₀.expiration = some t)
    (r : ORun launched (St.new p t0 disk log, .waiting) es (st, .loading []))
    (r' : Run st (after ++ [.op ck ⟨k, .get false⟩]) as st')
    (hw : ∀ e ∈ es ++ after, ¬ Writes k e) :
    ((∃ e ∈ after ++ [.op ck ⟨k, .get false⟩], Reaches t e) → as.getLast? = some (.ok (.value none))) ∧
    ((∀ e ∈ es ++ after ++ [.op ck ⟨k, .get false⟩], ¬ Reaches t e) →
      as.getLast? = some (.ok (.value (some e₀.value)))) := by
  have hl := linv_open p t0 disk log launched hd
  have hinv := linv_done (linv_run hl r)
  have hg := untouched_during_loading hl r (k := k) (e₀ := e₀) (t := t) h₀ ht (fun e he => hw e (by simp [he]))
  have hlook : st.look k = some (e₀.value, some t) ∨ (st.look k = none ∧ ∃ e ∈ es, Reaches t e) := by
    rcases hg with h | ⟨h, h'⟩
    · exact .inl (by rw [look_some h, ht])
    · exact .inr ⟨look_none h, h'⟩
  rw [run_last hinv r', perform_get]
  obtain ⟨_, i2, i3, i4⟩ := runEvents_unwritten k after (fun e he => hw e (by simp [he])) st.look
  constructor
  · rintro ⟨e, he, hre⟩
    have key : Spec.expire ck.now (Spec.runEvents st.look after).2 k = none := by
      simp only [Spec.expire]
      rcases hlook with h | ⟨h, _⟩
      · by_cases hr : ∃ e ∈ after, Reaches t e
        · rw [i3 _ t h hr]
        · rw [i2 _ t h (fun e he hre => hr ⟨e, he, hre⟩)]
          simp only [List.mem_append, List.mem_singleton] at he
          rcases he with he | rfl
          · exact absurd ⟨e, he, hre⟩ hr
          · obtain ⟨x, hx, hle⟩ := hre
            cases hx
            simp [hle]
      · rw [i4 h]
    rw [key]; rfl
  · intro hn
    rcases hlook with h | ⟨_, e, he, hre⟩
    · have key : Spec.expire ck.now (Spec.runEvents st.look after).2 k = some (e₀.value, some t) := by
        simp only [Spec.expire]
        rw [i2 _ t h (fun e he => hn e (by simp [he]))]
        have : ¬ t ≤ ck.now := fun hle => hn _ (List.mem_append_right _ (List.mem_singleton.mpr rfl)) ⟨ck.now, rfl, hle⟩
        simp [this]
      rw [key]; rfl
    · exact absurd hre (hn e (by simp [he]))

/-! ## Violations -/

/-- A disk with one key that expires at 10. -/
def exDisk : OMap (Entry Unit) := OMap.empty.set exKey ⟨.bytes [1], some 10, 2⟩
def exOpen : St Unit := St.new .immediate 15 exDisk []

/-- **C42 is violated** (finding F22): a read at time 20, before the loader has run, answers a key that
expired at 10. -/
theorem C42_violated_expired_key_readable :
    (exOpen.perform (exClock 20) ⟨exKey, .get false⟩).1 = .ok (.value (some (.bytes [1]))) := rfl

/-- The store is reopened at 5; the loader takes its snapshot; the key is overwritten without
expiration; the loader loads the old expiration. -/
def exEarly : St Unit := St.new .immediate 5 exDisk []
def exOver : St Unit := (exEarly.perform (exClock 6) ⟨exKey, .set (plainSet (.bytes [2]) none)⟩).2
def exLoaded : St Unit := (exOver.updateExpiration exKey (some 10)).updateTarget 7

/-- **C42 is violated** (finding F22): the key overwritten without expiration disappears at 10. -/
theorem C42_violated_overwritten_key_expires :
    exEarly.toLoad 5 = [(exKey, 10)] ∧
    (exLoaded.perform (exClock 9) ⟨exKey, .get false⟩).1 = .ok (.value (some (.bytes [2]))) ∧
    (exLoaded.perform (exClock 10) ⟨exKey, .get false⟩).1 = .ok (.value none) ∧
    (exLoaded.tick (exClock 10)).get exKey = none := ⟨rfl, rfl, rfl, rfl⟩

/-- The partial theorems apply: reopen, an operation on another key, snapshot, load. -/
example : ∃ es st, ORun 5 (exEarly, .waiting) es (st, .loading []) ∧ es.length = 1 ∧
    st.expiring.get exKey = some 10 := by
  refine ⟨_, _, .snoc (.snoc (.snoc (.nil _) (.base (.op _ (exClock 6) ⟨[0, 108], .set (plainSet (.bytes [2]) none)⟩))
    ?_ ?_) (.snapshot _) ?_ ?_) (.load _ exKey 10 [] 7) ?_ ?_, rfl, rfl⟩
  · intro e he t ht
    simp only [List.mem_singleton] at he
    subst he
    cases ht
    decide
  · rintro rest ⟨⟩
  · intro e he; cases he
  · rintro rest ⟨⟩
  · intro e he; cases he
  · intro rest _ e he; cases he

example : ∀ k e, exDisk.get k = some e → e.lastUpdated < 5 := by
  intro k e h
  simp only [exDisk, OMap.get_set] at h
  split at h
  · cases h; decide
  · cases h

end Bonsai.KV
