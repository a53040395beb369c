import Verif.Pubsub.C67

/-!
# Publish/subscribe: invariants of remote subscribers
-/
set_option linter.unusedSimpArgs false
set_option linter.unusedVariables false

namespace Bonsai.Pubsub
open Bonsai Bonsai.Names

/-- What holds of ids, channels and connections as long as the server is not restarted. -/
structure World.Ok (tr : List Label) (w : World) : Prop where
  ids : w.table.Ids
  ansLe : ∀ a ∈ w.answers, a.2 ≤ w.table.lastId ∧ a.1 < w.links.length
  ansFun : ∀ a ∈ w.answers, ∀ b ∈ w.answers, a.2 = b.2 → a = b
  mapsLt : ∀ k, ∀ p ∈ w.maps k, p.1 ≤ w.table.lastId ∧ p.2 < w.chans
  ansMaps : ∀ a ∈ w.answers, ∀ k, ∀ p ∈ w.maps k, p.1 ≠ a.2
  gotNone : ∀ ch, w.chans ≤ ch → w.got ch = []
  handles : ∀ h ∈ w.handles, h.2.1 ≤ w.table.lastId ∧ h.2.2 < w.chans ∧ ∀ a ∈ w.answers, a.2 ≠ h.2.1
  upLt : ∀ c ∈ w.up, c < w.links.length
  upOne : ∀ c ∈ w.up, ∀ c' ∈ w.up, ∀ k tp tp', w.links[c]? = some (k, tp) → w.links[c']? = some (k, tp') →
    c = c'
  upTr : ∀ c, c < w.links.length → Label.lost c ∉ tr → c ∈ w.up
  wireUp : ∀ c, c ∉ w.up → w.wire c = []
  wireLe : ∀ c, ∀ p ∈ w.wire c, p.1 ≤ w.table.lastId

theorem ok_initial : World.Ok [] World.initial := by
  refine ⟨fun p hp => (by cases hp), fun a ha => (by cases ha), fun a ha => (by cases ha),
    fun k p hp => (by cases hp), fun a ha => (by cases ha), fun _ _ => rfl, fun h hh => (by cases hh),
    fun c hc => (by cases hc), fun c hc => (by cases hc), fun c hc => ?_, fun _ _ => rfl,
    fun c p hp => (by cases hp)⟩
  exact absurd hc (Nat.not_lt_zero c)

theorem not_mem_snoc {l x : Label} {tr : List Label} (h : x ∉ tr ++ [l]) : x ∉ tr ∧ x ≠ l :=
  ⟨fun hm => h (List.mem_append_left _ hm), fun e => h (List.mem_append_right _ (by simp [e]))⟩

theorem World.Ok.table {tr : List Label} {w : World} (h : w.Ok tr) {t : Table} {l : Label} (hi : t.Ids)
    (hl : w.table.lastId ≤ t.lastId) (hne : ∀ c, l ≠ .lost c) : World.Ok (tr ++ [l]) { w with table := t } :=
  ⟨hi, fun a ha => ⟨Nat.le_trans (h.ansLe a ha).1 hl, (h.ansLe a ha).2⟩, h.ansFun,
    fun k p hp => ⟨Nat.le_trans (h.mapsLt k p hp).1 hl, (h.mapsLt k p hp).2⟩, h.ansMaps, h.gotNone,
    fun x hx => ⟨Nat.le_trans (h.handles x hx).1 hl, (h.handles x hx).2⟩, h.upLt, h.upOne,
    fun c hc hm => h.upTr c hc (not_mem_snoc hm).1, h.wireUp,
    fun c p hp => Nat.le_trans (h.wireLe c p hp) hl⟩

theorem World.Ok.create {tr : List Label} {w : World} (h : w.Ok tr) (d : String) (o : Owner)
    (con : Option Nat) (c : Nat) (hc : c < w.links.length) {l : Label} (hne : ∀ c, l ≠ .lost c) :
    World.Ok (tr ++ [l]) { w with
      table := w.table.create d o con
      answers := (c, w.table.lastId + 1) :: w.answers } := by
  have h0 := h.table (l := l) (ids_create h.ids d o con) (Nat.le_succ _) hne
  refine ⟨h0.ids, ?_, ?_, h0.mapsLt, ?_, h0.gotNone, ?_, h0.upLt, h0.upOne, h0.upTr, h0.wireUp, h0.wireLe⟩
  · intro a ha
    rcases List.mem_cons.mp ha with rfl | ha
    · exact ⟨Nat.le_refl _, hc⟩
    · exact h0.ansLe a ha
  · intro a ha b hb hab
    rcases List.mem_cons.mp ha with rfl | ha <;> rcases List.mem_cons.mp hb with rfl | hb
    · rfl
    · have := (h.ansLe b hb).1
      simp only at hab; omega
    · have := (h.ansLe a ha).1
      simp only at hab; omega
    · exact h.ansFun a ha b hb hab
  · intro a ha k p hp
    rcases List.mem_cons.mp ha with rfl | ha
    · have := (h.mapsLt k p hp).1
      simp only; omega
    · exact h.ansMaps a ha k p hp
  · intro x hx
    refine ⟨(h0.handles x hx).1, (h0.handles x hx).2.1, fun a ha => ?_⟩
    rcases List.mem_cons.mp ha with rfl | ha
    · have := (h.handles x hx).1
      simp only; omega
    · exact (h.handles x hx).2.2 a ha

theorem channelOf_mem {m : List (Nat × Nat)} {i ch : Nat} (h : channelOf m i = some ch) : (i, ch) ∈ m := by
  unfold channelOf at h
  rw [Option.map_eq_some_iff] at h
  obtain ⟨p, hp, rfl⟩ := h
  have h1 := List.mem_of_find?_eq_some hp
  have h2 := List.find?_some hp
  simp only [decide_eq_true_eq] at h2
  rw [← h2]
  exact h1

theorem channelOf_none {m : List (Nat × Nat)} {i : Nat} (h : channelOf m i = none) :
    ∀ p ∈ m, p.1 ≠ i := by
  intro p hp e
  unfold channelOf at h
  rw [Option.map_eq_none_iff, List.find?_eq_none] at h
  exact h p hp (by simp [e])

theorem putIn_ne {got : Nat → List Msg} {o : Option Nat} {m : Msg} {ch : Nat} (h : o ≠ some ch) :
    putIn got o m ch = got ch := by
  cases o with
  | none => rfl
  | some x =>
    have : ch ≠ x := fun e => h (by rw [e])
    simp [putIn, setAt, this]

theorem putIn_eq (got : Nat → List Msg) (m : Msg) (ch : Nat) :
    putIn got (some ch) m ch = got ch ++ [m] := by
  simp [putIn, setAt]

theorem World.Ok.step {tr : List Label} {w w' : World} {l : Label} (h : w.Ok tr) (k : Step w l w')
    (hr : l ≠ .restarted) : w'.Ok (tr ++ [l]) := by
  cases k with
  | call l t hs =>
    refine h.table (hs.ids h.ids).1 (hs.ids h.ids).2 ?_
    cases hs <;> simp
  | create c sid db hdb hc => exact h.create _ _ _ c hc (by simp)
  | createOrphan c db hdb hc => exact h.create _ _ _ c hc (by simp)
  | receive i s m q hs ho hq =>
    have h0 := h.table (l := .moved) (ids_alter h.ids i fun s => { s with queue := q }) (Nat.le_refl _) (by simp)
    exact ⟨h0.ids, h0.ansLe, h0.ansFun, h0.mapsLt, h0.ansMaps, h0.gotNone, h0.handles, h0.upLt, h0.upOne,
      h0.upTr, h0.wireUp, h0.wireLe⟩
  | forward i s c m q hs hc hq hup =>
    have h0 := h.table (l := .moved) (ids_alter h.ids i fun s => { s with queue := q }) (Nat.le_refl _) (by simp)
    refine ⟨h0.ids, h0.ansLe, h0.ansFun, h0.mapsLt, h0.ansMaps, h0.gotNone, h0.handles, h0.upLt, h0.upOne,
      h0.upTr, ?_, ?_⟩
    · intro c' hc'
      have : c' ≠ c := fun e => hc' (by rw [e]; exact hup)
      simp only [setAt_ne _ _ this]
      exact h.wireUp c' hc'
    · intro c' p hp
      simp only at hp
      by_cases e : c' = c
      · subst e
        rw [setAt_self, List.mem_append, List.mem_singleton] at hp
        rcases hp with hp | rfl
        · exact h.wireLe _ p hp
        · exact sub_le h.ids hs
      · rw [setAt_ne _ _ e] at hp
        exact h.wireLe c' p hp
  | forwardFails i s c m q hs hc hq hup => exact h.table (ids_alter h.ids _ _) (Nat.le_refl _) (by simp)
  | forwardLost i s c m q hs hc hq hup => exact h.table (ids_alter h.ids _ _) (Nat.le_refl _) (by simp)
  | connect k tp hk =>
    have link : ∀ c, c < w.links.length → (w.links ++ [(k, tp)])[c]? = w.links[c]? := fun c hc =>
      List.getElem?_append_left hc
    refine ⟨h.ids, fun a ha => ⟨(h.ansLe a ha).1, ?_⟩, h.ansFun, h.mapsLt, h.ansMaps, h.gotNone, h.handles, ?_, ?_, ?_, ?_, h.wireLe⟩
    · have := (h.ansLe a ha).2
      simp only [List.length_append, List.length_singleton]; omega
    · intro c hc
      simp only [List.length_append, List.length_singleton]
      rcases List.mem_cons.mp hc with rfl | hc
      · omega
      · have := h.upLt c hc; omega
    · have new : ∀ c ∈ w.up, ∀ k' tp1 tp2, (w.links ++ [(k, tp)])[w.links.length]? = some (k', tp1) →
          (w.links ++ [(k, tp)])[c]? = some (k', tp2) → False := by
        intro c hc k' tp1 tp2 h1 h2
        rw [List.getElem?_append_right (Nat.le_refl _)] at h1
        simp only [Nat.sub_self, List.getElem?_cons_zero, Option.some.injEq, Prod.mk.injEq] at h1
        rw [link c (h.upLt c hc), ← h1.1] at h2
        exact hk c hc tp2 h2
      intro c hc c' hc' k' tp1 tp2 h1 h2
      rcases List.mem_cons.mp hc with rfl | hc <;> rcases List.mem_cons.mp hc' with rfl | hc'
      · rfl
      · exact (new c' hc' k' tp1 tp2 h1 h2).elim
      · exact (new c hc k' tp2 tp1 h2 h1).elim
      · rw [link c (h.upLt c hc)] at h1
        rw [link c' (h.upLt c' hc')] at h2
        exact h.upOne c hc c' hc' k' tp1 tp2 h1 h2
    · intro c hc hm
      simp only [List.length_append, List.length_singleton] at hc
      by_cases e : c = w.links.length
      · exact List.mem_cons.mpr (.inl e)
      · exact List.mem_cons_of_mem _ (h.upTr c (by omega) (not_mem_snoc hm).1)
    · intro c hc
      exact h.wireUp c fun hm => hc (List.mem_cons_of_mem _ hm)
  | lose c k tp hl hup =>
    have sub : ∀ k', ∀ p ∈ (if tp = .webSocket then setAt w.maps k [] else w.maps) k', p ∈ w.maps k' := by
      intro k' p hp
      split at hp
      · by_cases e : k' = k
        · subst e; rw [setAt_self] at hp; cases hp
        · rw [setAt_ne _ _ e] at hp; exact hp
      · exact hp
    have upsub : ∀ x, x ∈ (w.up.filter fun x => decide (x ≠ c)) → x ∈ w.up := fun x hx =>
      (List.mem_filter.mp hx).1
    refine ⟨h.ids, h.ansLe, h.ansFun, fun k' p hp => h.mapsLt k' p (sub k' p hp),
      fun a ha k' p hp => h.ansMaps a ha k' p (sub k' p hp), h.gotNone, h.handles,
      fun x hx => h.upLt x (upsub x hx),
      fun x hx y hy => h.upOne x (upsub x hx) y (upsub y hy), ?_, ?_, ?_⟩
    · intro x hx hm
      obtain ⟨h1, h2⟩ := not_mem_snoc hm
      refine List.mem_filter.mpr ⟨h.upTr x hx h1, ?_⟩
      simp only [ne_eq, decide_eq_true_eq]
      intro e
      exact h2 (by rw [e])
    · intro x hx
      simp only
      by_cases e : x = c
      · subst e; rw [setAt_self]
      · rw [setAt_ne _ _ e]
        refine h.wireUp x fun hm => hx (List.mem_filter.mpr ⟨hm, ?_⟩)
        simpa using e
    · intro x p hp
      simp only at hp
      by_cases e : x = c
      · subst e; rw [setAt_self] at hp; cases hp
      · rw [setAt_ne _ _ e] at hp; exact h.wireLe x p hp
  | register c i k tp ha hl =>
    have mem : ∀ k', ∀ p ∈ (setAt w.maps k ((i, w.chans) :: (w.maps k).filter fun p => decide (p.1 ≠ i))) k',
        p ∈ w.maps k' ∨ p = (i, w.chans) := by
      intro k' p hp
      by_cases e : k' = k
      · subst e
        rw [setAt_self, List.mem_cons] at hp
        rcases hp with rfl | hp
        · exact .inr rfl
        · exact .inl (List.mem_filter.mp hp).1
      · rw [setAt_ne _ _ e] at hp; exact .inl hp
    have ans : ∀ a ∈ (w.answers.filter fun a => decide (a ≠ (c, i))), a ∈ w.answers ∧ a.2 ≠ i := by
      intro a haa
      obtain ⟨h1, h2⟩ := List.mem_filter.mp haa
      simp only [ne_eq, decide_eq_true_eq] at h2
      exact ⟨h1, fun e => h2 (h.ansFun a h1 _ ha e)⟩
    refine ⟨h.ids, fun a haa => h.ansLe a (ans a haa).1,
      fun a haa b hbb => h.ansFun a (ans a haa).1 b (ans b hbb).1, ?_, ?_, ?_, ?_, h.upLt, h.upOne, ?_,
      h.wireUp, h.wireLe⟩
    · intro k' p hp
      rcases mem k' p hp with hp | rfl
      · exact ⟨(h.mapsLt k' p hp).1, Nat.lt_succ_of_lt (h.mapsLt k' p hp).2⟩
      · exact ⟨(h.ansLe _ ha).1, Nat.lt_succ_self _⟩
    · intro a haa k' p hp
      rcases mem k' p hp with hp | rfl
      · exact h.ansMaps a (ans a haa).1 k' p hp
      · exact fun e => (ans a haa).2 e.symm
    · intro ch hch
      exact h.gotNone ch (Nat.le_of_succ_le hch)
    · intro x hx
      rcases List.mem_cons.mp hx with rfl | hx
      · exact ⟨(h.ansLe _ ha).1, Nat.lt_succ_self _, fun a haa => (ans a haa).2⟩
      · exact ⟨(h.handles x hx).1, Nat.lt_succ_of_lt (h.handles x hx).2.1,
          fun a haa => (h.handles x hx).2.2 a (ans a haa).1⟩
    · intro x hx hm
      exact h.upTr x hx (not_mem_snoc hm).1
  | deliver c k i tp m q hl hq =>
    refine ⟨h.ids, h.ansLe, h.ansFun, h.mapsLt, h.ansMaps, ?_, h.handles, h.upLt, h.upOne, ?_, ?_, ?_⟩
    · intro ch hch
      simp only
      rw [putIn_ne]
      · exact h.gotNone ch hch
      · intro e
        have hm := (h.mapsLt k _ (channelOf_mem e)).2
        have hm : ch < w.chans := hm
        have hch : w.chans ≤ ch := hch
        omega
    · intro x hx hm
      exact h.upTr x hx (not_mem_snoc hm).1
    · intro x hx
      simp only
      by_cases e : x = c
      · subst e
        rw [h.wireUp x hx] at hq
        cases hq
      · rw [setAt_ne _ _ e]; exact h.wireUp x hx
    · intro x p hp
      simp only at hp
      by_cases e : x = c
      · subst e
        rw [setAt_self] at hp
        exact h.wireLe x p (by rw [hq]; exact List.mem_cons_of_mem _ hp)
      · rw [setAt_ne _ _ e] at hp; exact h.wireLe x p hp
  | forget k i ch hh =>
    have mem : ∀ k', ∀ p ∈ (setAt w.maps k ((w.maps k).filter fun p => decide (p.1 ≠ i))) k',
        p ∈ w.maps k' := by
      intro k' p hp
      by_cases e : k' = k
      · subst e
        rw [setAt_self] at hp
        exact (List.mem_filter.mp hp).1
      · rw [setAt_ne _ _ e] at hp; exact hp
    exact ⟨h.ids, h.ansLe, h.ansFun, fun k' p hp => h.mapsLt k' p (mem k' p hp),
      fun a ha k' p hp => h.ansMaps a ha k' p (mem k' p hp), h.gotNone,
      fun x hx => h.handles x (List.mem_filter.mp hx).1, h.upLt, h.upOne,
      fun x hx hm => h.upTr x hx (not_mem_snoc hm).1, h.wireUp, h.wireLe⟩
  | restart => exact absurd rfl hr

theorem Exec.ok {w : World} {tr : List Label} (he : Exec World.initial tr w) (hn : NoRestart tr) :
    w.Ok tr := by
  induction he with
  | nil => exact ok_initial
  | @snoc tr w' l w'' ex k ih =>
    exact (ih fun hm => hn (List.mem_append_left _ hm)).step k
      fun e => hn (List.mem_append_right _ (by simp [e]))

/-- The messages for subscriber `i` that are on their way on connection `c`. -/
def World.onWire (w : World) (c i : Nat) : List Msg := ((w.wire c).filter fun p => p.1 = i).map (·.2)

/-! ## Before the client has entered the subscriber in its map -/

structure Before (i : Nat) (db : String) (owner : Owner) (c : Nat) (h : List Label) (w : World) : Prop where
  sub : ∃ s, w.table.sub i = some s ∧ Core i db owner (some c) (h.foldl (topicStep i owner) (some [])) s ∧
    s.queue = []
  silent : ∀ T, h.foldl (topicStep i owner) (some []) = some T → T = []
  nowire : ∀ c', ∀ p ∈ w.wire c', p.1 ≠ i
  nothing : wanted i db owner [] h = []

theorem Before.step {i : Nat} {db : String} {owner : Owner} {c : Nat} {h : List Label} {tr : List Label}
    {w w' : World} {l : Label} (b : Before i db owner c h w) (ok : w.Ok tr) (hdb : NullFree db)
    (k : Step w l w') (hr : l ≠ .restarted) (hs : ∀ t, l ≠ .subscribed i t) :
    Before i db owner c (h ++ [l]) w' := by
  obtain ⟨⟨s, hs1, hc, hq⟩, hsil, hw, hn⟩ := b
  have hem : emit db (h.foldl (topicStep i owner) (some [])) l = [] := by
    cases hT : h.foldl (topicStep i owner) (some []) with
    | none => exact emit_none ..
    | some T =>
      have := hsil T hT
      subst this
      cases l with
      | published d ts p => by_cases e : d = db <;> simp [emit, e]
      | _ => rfl
  have hsil' : ∀ T, (h ++ [l]).foldl (topicStep i owner) (some []) = some T → T = [] := by
    intro T hT
    rw [List.foldl_append] at hT
    simp only [List.foldl_cons, List.foldl_nil] at hT
    cases hT0 : h.foldl (topicStep i owner) (some []) with
    | none => rw [hT0, topicStep_none] at hT; cases hT
    | some T0 =>
      have := hsil T0 hT0
      subst this
      rw [hT0] at hT
      cases l with
      | subscribed j t =>
        have : j ≠ i := fun e => hs t (by rw [e])
        simp [topicStep, this] at hT
        exact hT
      | unsubscribed j t => simpa [topicStep] using hT.symm
      | ended j =>
        by_cases e : j = i
        · simp [topicStep, e] at hT
        · simp [topicStep, e] at hT
          exact hT
      | loggedOut c sid =>
        by_cases e : owner = .client c sid
        · simp [topicStep, e] at hT
        · simp [topicStep, e] at hT
          exact hT
      | _ => simpa [topicStep] using hT.symm
  have hn' : wanted i db owner [] (h ++ [l]) = [] := by rw [wanted_snoc, hn, hem]; rfl
  have fold : (h ++ [l]).foldl (topicStep i owner) (some []) =
      topicStep i owner (h.foldl (topicStep i owner) (some [])) l := by
    rw [List.foldl_append]; rfl
  have same : ∀ w' : World, w'.table.sub i = some s → (∀ c', ∀ p ∈ w'.wire c', p.1 ≠ i) →
      (∀ t, l ≠ .unsubscribed i t) → l ≠ .ended i → (∀ c sid, l ≠ .loggedOut c sid) →
      Before i db owner c (h ++ [l]) w' := by
    intro w' h1 h2 a1 a2 a3
    refine ⟨⟨s, h1, ?_, hq⟩, hsil', h2, hn'⟩
    rw [fold, topicStep_skip hs a1 a2 a3]
    exact hc
  have hle := sub_le ok.ids hs1
  have other : ∀ j s2 (m : Msg) q, w.table.sub j = some s2 → s2.queue = m :: q → i ≠ j := by
    intro j s2 m q h1 h2 e
    subst e
    rw [hs1] at h1
    cases h1
    rw [hq] at h2
    cases h2
  cases k with
  | call l t ht =>
    obtain ⟨s', h1, h2, h3⟩ := ht.flow ok.ids hdb hs1 hle hc
    refine ⟨⟨s', h1, by rw [fold]; exact h2, ?_⟩, hsil', hw, hn'⟩
    rw [hem, hq] at h3
    simpa using h3
  | create c2 sid db' hdb' hc' =>
    refine same _ ?_ hw (by simp) (by simp) (by simp)
    show (w.table.create _ _ _).sub i = some s
    rw [sub_create ok.ids, if_neg (by omega), hs1]
  | createOrphan c2 db' hdb' hc' =>
    refine same _ ?_ hw (by simp) (by simp) (by simp)
    show (w.table.create _ _ _).sub i = some s
    rw [sub_create ok.ids, if_neg (by omega), hs1]
  | receive j s2 m q hs2 ho hq2 =>
    refine same _ ?_ hw (by simp) (by simp) (by simp)
    show (w.table.alter j _).sub i = _
    rw [sub_alter_ne _ _ (other j s2 m q hs2 hq2), hs1]
  | forward j s2 c2 m q hs2 hc2 hq2 hup =>
    have hj := other j s2 m q hs2 hq2
    refine same _ ?_ ?_ (by simp) (by simp) (by simp)
    · show (w.table.alter j _).sub i = _
      rw [sub_alter_ne _ _ hj, hs1]
    · intro c' p hp
      simp only at hp
      by_cases e : c' = c2
      · subst e
        rw [setAt_self, List.mem_append, List.mem_singleton] at hp
        rcases hp with hp | rfl
        · exact hw _ p hp
        · exact hj.symm
      · rw [setAt_ne _ _ e] at hp; exact hw c' p hp
  | forwardFails j s2 c2 m q hs2 hc2 hq2 hup =>
    have hj := other j s2 m q hs2 hq2
    refine same _ ?_ hw (by simp) (by simpa using hj.symm) (by simp)
    show (w.table.alter j _).sub i = _
    rw [sub_alter_ne _ _ hj, hs1]
  | forwardLost j s2 c2 m q hs2 hc2 hq2 hup =>
    have hj := other j s2 m q hs2 hq2
    refine same _ ?_ hw (by simp) (by simp) (by simp)
    show (w.table.alter j _).sub i = _
    rw [sub_alter_ne _ _ hj, hs1]
  | connect => exact same _ hs1 hw (by simp) (by simp) (by simp)
  | lose c2 k tp hl hup =>
    refine same _ hs1 ?_ (by simp) (by simp) (by simp)
    intro x p hp
    simp only at hp
    by_cases e : x = c2
    · subst e; rw [setAt_self] at hp; cases hp
    · rw [setAt_ne _ _ e] at hp; exact hw x p hp
  | register => exact same _ hs1 hw (by simp) (by simp) (by simp)
  | deliver c2 k j tp m q hl hq2 =>
    refine same _ hs1 ?_ (by simp) (by simp) (by simp)
    intro x p hp
    simp only at hp
    by_cases e : x = c2
    · subst e
      rw [setAt_self] at hp
      exact hw x p (by rw [hq2]; exact List.mem_cons_of_mem _ hp)
    · rw [setAt_ne _ _ e] at hp; exact hw x p hp
  | forget => exact same _ hs1 hw (by simp) (by simp) (by simp)
  | restart => exact absurd rfl hr

end Bonsai.Pubsub
