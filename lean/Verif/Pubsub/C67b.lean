import Verif.Pubsub.Remote

/-!
# C67: remote subscribers
-/
set_option linter.unusedSimpArgs false
set_option linter.unusedVariables false

namespace Bonsai.Pubsub
open Bonsai Bonsai.Names

/-- A remote subscriber after the client `k` has entered it in its map, `h` being the history since it
was created. -/
structure After (i : Nat) (db : String) (owner : Owner) (c k ch : Nat) (h : List Label) (w : World) :
    Prop where
  sub : ∃ s, w.table.sub i = some s ∧ Core i db owner (some c) (h.foldl (topicStep i owner) (some [])) s ∧
    (c ∈ w.up → (i, ch) ∈ w.maps k →
      w.got ch ++ (w.onWire c i ++ s.queue.map removePrefix) = wanted i db owner [] h)
  pre : w.got ch <+: wanted i db owner [] h
  link : ∃ tp, w.links[c]? = some (k, tp)
  onlyc : ∀ c', c' ≠ c → ∀ p ∈ w.wire c', p.1 ≠ i
  chLt : ch < w.chans
  chOnly : ∀ k', ∀ p ∈ w.maps k', p.2 = ch → k' = k ∧ p = (i, ch)
  iOnly : ∀ k', ∀ p ∈ w.maps k', p.1 = i → p = (i, ch)
  noAns : ∀ a ∈ w.answers, a.2 ≠ i
  handle : ∀ x ∈ w.handles, x.2.1 = i → x = (k, i, ch)
  there : (i, ch) ∈ w.maps k ∨ ch ∈ w.closed
  kept : c ∈ w.up → Label.dropped k i ch ∉ h → (i, ch) ∈ w.maps k

theorem wanted_mono (i : Nat) (db : String) (owner : Owner) (h : List Label) (l : Label) :
    wanted i db owner [] h <+: wanted i db owner [] (h ++ [l]) := by
  rw [wanted_snoc]; exact List.prefix_append ..

theorem After.step {i : Nat} {db : String} {owner : Owner} {c k ch : Nat} {h : List Label}
    {tr : List Label} {w w' : World} {l : Label} (b : After i db owner c k ch h w) (ok : w.Ok tr)
    (hdb : NullFree db) (hh : ∀ x ∈ h, x ∈ tr) (st : Step w l w') (hr : l ≠ .restarted) :
    After i db owner c k ch (h ++ [l]) w' := by
  obtain ⟨⟨s, hs, hc, hq⟩, hpre, hlink, honly, hch, hco, hio, hna, hha, hth, hk⟩ := b
  have hle := sub_le ok.ids hs
  have hpre' := hpre.trans (wanted_mono i db owner h l)
  have fold : (h ++ [l]).foldl (topicStep i owner) (some []) =
      topicStep i owner (h.foldl (topicStep i owner) (some [])) l := by
    rw [List.foldl_append]; rfl
  have hk' : c ∈ w.up → Label.dropped k i ch ∉ h ++ [l] → (i, ch) ∈ w.maps k :=
    fun h1 h2 => hk h1 (not_mem_snoc h2).1
  -- steps which leave the subscriber alone
  have core' : (∀ t, l ≠ .subscribed i t) → (∀ t, l ≠ .unsubscribed i t) → l ≠ .ended i →
      (∀ c sid, l ≠ .loggedOut c sid) →
      Core i db owner (some c) ((h ++ [l]).foldl (topicStep i owner) (some [])) s := by
    intro a0 a1 a2 a3
    rw [fold, topicStep_skip a0 a1 a2 a3]; exact hc
  have want' : (∀ d ts p, l ≠ .published d ts p) →
      wanted i db owner [] (h ++ [l]) = wanted i db owner [] h := by
    intro a
    rw [wanted_snoc, emit_skip a, List.append_nil]
  cases st with
  | call l t ht =>
    obtain ⟨s', h1, h2, h3⟩ := ht.flow ok.ids hdb hs hle hc
    refine ⟨⟨s', h1, by rw [fold]; exact h2, fun hu hm => ?_⟩, hpre', hlink, honly, hch, hco, hio, hna, hha,
      hth, hk'⟩
    rw [h3, wanted_snoc, ← hq hu hm]
    simp only [List.append_assoc]
    rfl
  | create c2 sid db' hdb' hc' =>
    refine ⟨⟨s, ?_, core' (by simp) (by simp) (by simp) (by simp), fun hu hm => ?_⟩, hpre', hlink, honly,
      hch, hco, hio, ?_, hha, hth, hk'⟩
    · show (w.table.create _ _ _).sub i = some s
      rw [sub_create ok.ids, if_neg (by omega), hs]
    · rw [want' (by simp)]; exact hq hu hm
    · intro a ha
      rcases List.mem_cons.mp ha with rfl | ha
      · simp only; omega
      · exact hna a ha
  | createOrphan c2 db' hdb' hc' =>
    refine ⟨⟨s, ?_, core' (by simp) (by simp) (by simp) (by simp), fun hu hm => ?_⟩, hpre', hlink, honly,
      hch, hco, hio, ?_, hha, hth, hk'⟩
    · show (w.table.create _ _ _).sub i = some s
      rw [sub_create ok.ids, if_neg (by omega), hs]
    · rw [want' (by simp)]; exact hq hu hm
    · intro a ha
      rcases List.mem_cons.mp ha with rfl | ha
      · simp only; omega
      · exact hna a ha
  | receive j s2 m q hs2 ho hq2 =>
    have hj : i ≠ j := by
      intro e
      subst e
      rw [hs] at hs2
      cases hs2
      rw [hc.2.1] at ho
      cases ho
    refine ⟨⟨s, ?_, core' (by simp) (by simp) (by simp) (by simp), fun hu hm => ?_⟩, hpre', hlink, honly,
      hch, hco, hio, hna, hha, hth, hk'⟩
    · show (w.table.alter j _).sub i = _
      rw [sub_alter_ne _ _ hj, hs]
    · rw [want' (by simp)]; exact hq hu hm
  | forward j s2 c2 m q hs2 hc2 hq2 hup =>
    by_cases hj : i = j
    · subst hj
      rw [hs] at hs2
      cases hs2
      have hcc : c = c2 := by
        rw [hc.2.1] at hc2
        exact Option.some.inj hc2
      subst hcc
      refine ⟨⟨{ s with queue := q }, ?_, core_pop (core' (by simp) (by simp) (by simp) (by simp)) q, fun hu hm => ?_⟩,
        hpre', hlink, ?_, hch, hco, hio, hna, hha, hth, hk'⟩
      · show (w.table.alter i _).sub i = _
        rw [sub_alter_self, hs]; rfl
      · rw [want' (by simp), ← hq hu hm, hq2]
        simp [World.onWire, setAt_self, List.filter_append]
      · intro c' hc' p hp
        simp only [setAt_ne _ _ hc'] at hp
        exact honly c' hc' p hp
    · have wireEq : ∀ c', ∀ p, p ∈ (setAt w.wire c2 (w.wire c2 ++ [(j, removePrefix m)])) c' → p.1 = i →
          p ∈ w.wire c' := by
        intro c' p hp hpi
        by_cases e : c' = c2
        · subst e
          rw [setAt_self, List.mem_append, List.mem_singleton] at hp
          rcases hp with hp | rfl
          · exact hp
          · exact absurd hpi.symm hj
        · rw [setAt_ne _ _ e] at hp; exact hp
      have onEq : ((setAt w.wire c2 (w.wire c2 ++ [(j, removePrefix m)]) c).filter fun p => decide (p.1 = i)) =
          (w.wire c).filter fun p => decide (p.1 = i) := by
        by_cases e : c = c2
        · subst e
          have : ¬ j = i := fun e => hj e.symm
          rw [setAt_self, List.filter_append]
          simp [this]
        · rw [setAt_ne _ _ e]
      refine ⟨⟨s, ?_, core' (by simp) (by simp) (by simp) (by simp), fun hu hm => ?_⟩, hpre', hlink, ?_,
        hch, hco, hio, hna, hha, hth, hk'⟩
      · show (w.table.alter j _).sub i = _
        rw [sub_alter_ne _ _ hj, hs]
      · rw [want' (by simp), ← hq hu hm]
        simp only [World.onWire]
        rw [onEq]
      · intro c' hc' p hp hpi
        exact honly c' hc' p (wireEq c' p hp hpi) hpi
  | forwardFails j s2 c2 m q hs2 hc2 hq2 hup =>
    by_cases hj : i = j
    · subst hj
      rw [hs] at hs2
      cases hs2
      have hcc : c = c2 := by
        rw [hc.2.1] at hc2
        exact Option.some.inj hc2
      subst hcc
      refine ⟨⟨{ s.finish with queue := q }, ?_, ?_, fun hu _ => absurd hu hup⟩, hpre', hlink, honly, hch,
        hco, hio, hna, hha, hth, hk'⟩
      · show (w.table.alter i _).sub i = _
        rw [sub_alter_self, hs]; rfl
      · rw [fold]
        exact core_pop (core_finish hc) q
    · refine ⟨⟨s, ?_, core' (by simp) (by simp) (by simpa using fun e => hj e.symm) (by simp),
        fun hu hm => ?_⟩, hpre', hlink, honly, hch, hco, hio, hna, hha, hth, hk'⟩
      · show (w.table.alter j _).sub i = _
        rw [sub_alter_ne _ _ hj, hs]
      · rw [want' (by simp)]; exact hq hu hm
  | forwardLost j s2 c2 m q hs2 hc2 hq2 hup =>
    by_cases hj : i = j
    · subst hj
      rw [hs] at hs2
      cases hs2
      have hcc : c = c2 := by
        rw [hc.2.1] at hc2
        exact Option.some.inj hc2
      subst hcc
      refine ⟨⟨{ s with queue := q }, ?_, core_pop (core' (by simp) (by simp) (by simp) (by simp)) q,
        fun hu _ => absurd hu hup⟩, hpre', hlink, honly, hch, hco, hio, hna, hha, hth, hk'⟩
      show (w.table.alter i _).sub i = _
      rw [sub_alter_self, hs]; rfl
    · refine ⟨⟨s, ?_, core' (by simp) (by simp) (by simp) (by simp), fun hu hm => ?_⟩, hpre', hlink, honly,
        hch, hco, hio, hna, hha, hth, hk'⟩
      · show (w.table.alter j _).sub i = _
        rw [sub_alter_ne _ _ hj, hs]
      · rw [want' (by simp)]; exact hq hu hm
  | connect k2 tp hk2 =>
    obtain ⟨tp0, hl0⟩ := hlink
    have hlt : c < w.links.length := by
      rw [List.getElem?_eq_some_iff] at hl0
      exact hl0.1
    have upIff : c ∈ w.links.length :: w.up → c ∈ w.up := by
      intro hm
      rcases List.mem_cons.mp hm with e | hm
      · omega
      · exact hm
    refine ⟨⟨s, hs, core' (by simp) (by simp) (by simp) (by simp), fun hu hm => ?_⟩, hpre', ⟨tp0, ?_⟩, honly,
      hch, hco, hio, hna, hha, hth, fun hu hd => hk' (upIff hu) hd⟩
    · rw [want' (by simp)]; exact hq (upIff hu) hm
    · show (w.links ++ [(k2, tp)])[c]? = _
      rw [List.getElem?_append_left hlt]; exact hl0
  | lose c2 k2 tp hl hup =>
    have mem : ∀ k', ∀ p ∈ (if tp = .webSocket then setAt w.maps k2 [] else w.maps) k', p ∈ w.maps k' := by
      intro k' p hp
      split at hp
      · by_cases e : k' = k2
        · subst e; rw [setAt_self] at hp; cases hp
        · rw [setAt_ne _ _ e] at hp; exact hp
      · exact hp
    have upNe : c ∈ (w.up.filter fun x => decide (x ≠ c2)) → c ∈ w.up ∧ c ≠ c2 := by
      intro hm
      have := List.mem_filter.mp hm
      exact ⟨this.1, by simpa using this.2⟩
    have other : c ≠ c2 → c ∈ w.up → k2 ≠ k := by
      intro hne hu e
      subst e
      obtain ⟨tp0, hl0⟩ := hlink
      exact hne (ok.upOne c hu c2 hup _ _ _ hl0 hl)
    have wireSub : ∀ c', ∀ p ∈ setAt w.wire c2 [] c', p ∈ w.wire c' := by
      intro c' p hp
      by_cases e : c' = c2
      · subst e; rw [setAt_self] at hp; cases hp
      · rw [setAt_ne _ _ e] at hp; exact hp
    refine ⟨⟨s, hs, core' (by simp) (by simp) (by simp) (by simp), fun hu hm => ?_⟩, hpre', hlink,
      fun c' hc' p hp => honly c' hc' p (wireSub c' p hp), hch,
      fun k' p hp => hco k' p (mem k' p hp), fun k' p hp => hio k' p (mem k' p hp), hna, hha, ?_,
      fun hu hd => ?_⟩
    · obtain ⟨hu1, hu2⟩ := upNe hu
      rw [want' (by simp), ← hq hu1 (mem k _ hm)]
      simp only [World.onWire, setAt_ne _ _ hu2]
    · simp only
      by_cases ht : tp = .webSocket
      · simp only [ht, if_true]
        by_cases e : k = k2
        · subst e
          rcases hth with hm | hm
          · exact .inr (List.mem_append_left _ (List.mem_map.mpr ⟨_, hm, rfl⟩))
          · exact .inr (List.mem_append_right _ hm)
        · rw [setAt_ne _ _ e]
          rcases hth with hm | hm
          · exact .inl hm
          · exact .inr (List.mem_append_right _ hm)
      · simp only [ht, if_false]
        exact hth
    · obtain ⟨hu1, hu2⟩ := upNe hu
      have := hk' hu1 hd
      simp only
      split
      · rw [setAt_ne _ _ (other hu2 hu1).symm]; exact this
      · exact this
  | register c2 j k2 tp ha hl =>
    have hj : j ≠ i := fun e => hna _ ha e
    have mem : ∀ k', ∀ p ∈ (setAt w.maps k2 ((j, w.chans) :: (w.maps k2).filter fun p => decide (p.1 ≠ j))) k',
        p ∈ w.maps k' ∨ p = (j, w.chans) := by
      intro k' p hp
      by_cases e : k' = k2
      · subst e
        rw [setAt_self, List.mem_cons] at hp
        rcases hp with rfl | hp
        · exact .inr rfl
        · exact .inl (List.mem_filter.mp hp).1
      · rw [setAt_ne _ _ e] at hp; exact .inl hp
    have keep : (i, ch) ∈ w.maps k →
        (i, ch) ∈ (setAt w.maps k2 ((j, w.chans) :: (w.maps k2).filter fun p => decide (p.1 ≠ j))) k := by
      intro hm
      by_cases e : k = k2
      · subst e
        rw [setAt_self]
        refine List.mem_cons_of_mem _ (List.mem_filter.mpr ⟨hm, ?_⟩)
        simpa using fun e => hj e.symm
      · rw [setAt_ne _ _ e]; exact hm
    have back : (i, ch) ∈ (setAt w.maps k2 ((j, w.chans) :: (w.maps k2).filter fun p => decide (p.1 ≠ j))) k →
        (i, ch) ∈ w.maps k := by
      intro hm
      rcases mem k _ hm with hm | e
      · exact hm
      · cases e; exact absurd rfl hj
    refine ⟨⟨s, hs, core' (by simp) (by simp) (by simp) (by simp), fun hu hm => ?_⟩, hpre', hlink, honly,
      Nat.lt_succ_of_lt hch, ?_, ?_, fun a haa => hna a (List.mem_filter.mp haa).1, ?_, ?_,
      fun hu hd => keep (hk' hu hd)⟩
    · rw [want' (by simp)]; exact hq hu (back hm)
    · intro k' p hp e
      rcases mem k' p hp with hp | rfl
      · exact hco k' p hp e
      · simp only at e; omega
    · intro k' p hp e
      rcases mem k' p hp with hp | rfl
      · exact hio k' p hp e
      · exact absurd e hj
    · intro x hx e
      rcases List.mem_cons.mp hx with rfl | hx
      · exact absurd e hj
      · exact hha x hx e
    · rcases hth with hm | hm
      · exact .inl (keep hm)
      · exact .inr (List.mem_append_right _ hm)
  | deliver c2 k2 j tp m q hl hq2 =>
    have wireSub : ∀ c', ∀ p ∈ setAt w.wire c2 q c', p ∈ w.wire c' := by
      intro c' p hp
      by_cases e : c' = c2
      · subst e
        rw [setAt_self] at hp
        rw [hq2]; exact List.mem_cons_of_mem _ hp
      · rw [setAt_ne _ _ e] at hp; exact hp
    by_cases hj : j = i
    · subst hj
      have hc2 : c2 = c := Classical.byContradiction fun hne =>
        honly c2 hne (j, m) (by rw [hq2]; exact List.mem_cons_self) rfl
      subst hc2
      have hk2 : k2 = k := by
        obtain ⟨tp0, hl0⟩ := hlink
        rw [hl0] at hl
        cases hl
        rfl
      subst hk2
      have hu : c2 ∈ w.up := Classical.byContradiction fun hne => by
        rw [ok.wireUp c2 hne] at hq2
        cases hq2
      cases hco' : channelOf (w.maps k2) j with
      | none =>
        have hnot : (j, ch) ∉ w.maps k2 := fun hm => channelOf_none hco' _ hm rfl
        refine ⟨⟨s, hs, core' (by simp) (by simp) (by simp) (by simp), fun _ hm => absurd hm hnot⟩, hpre',
          hlink, fun c' hc' p hp => honly c' hc' p (wireSub c' p hp), hch, hco, hio, hna, hha, hth, hk'⟩
      | some ch' =>
        have hm := channelOf_mem hco'
        have := hio _ _ hm rfl
        simp only [Prod.mk.injEq, true_and] at this
        subst this
        have main : w.got ch' ++ [m] ++ (((q.filter fun p => decide (p.1 = j)).map (·.2)) ++
            s.queue.map removePrefix) = wanted j db owner [] h := by
          rw [← hq hu hm]
          simp [World.onWire, hq2]
        have main' : wanted j db owner [] (h ++ [.moved]) = wanted j db owner [] h := want' (by simp)
        refine ⟨⟨s, hs, core' (by simp) (by simp) (by simp) (by simp), fun _ _ => ?_⟩, ?_,
          hlink, fun c' hc' p hp => honly c' hc' p (wireSub c' p hp), hch, hco, hio, hna, hha, hth, hk'⟩
        · simp only [putIn_eq, World.onWire, setAt_self]
          rw [main', main]
        · simp only [putIn_eq]
          rw [main', ← main]
          exact List.prefix_append ..
    · have hne : channelOf (w.maps k2) j ≠ some ch := by
        intro e
        have := (hco k2 _ (channelOf_mem e) rfl).2
        simp only [Prod.mk.injEq, and_true] at this
        exact hj this
      have onEq : ((setAt w.wire c2 q c).filter fun p => decide (p.1 = i)) =
          (w.wire c).filter fun p => decide (p.1 = i) := by
        by_cases e : c = c2
        · subst e
          rw [setAt_self, hq2]
          simp [hj]
        · rw [setAt_ne _ _ e]
      refine ⟨⟨s, hs, core' (by simp) (by simp) (by simp) (by simp), fun hu hm => ?_⟩, ?_,
          hlink, fun c' hc' p hp => honly c' hc' p (wireSub c' p hp), hch, hco, hio, hna, hha, hth, hk'⟩
      · simp only [putIn_ne hne, World.onWire]
        rw [want' (by simp), onEq]
        exact hq hu hm
      · simp only [putIn_ne hne]
        exact hpre'
  | forget k2 j ch2 hh2 =>
    have mem : ∀ k', ∀ p ∈ (setAt w.maps k2 ((w.maps k2).filter fun p => decide (p.1 ≠ j))) k',
        p ∈ w.maps k' := by
      intro k' p hp
      by_cases e : k' = k2
      · subst e
        rw [setAt_self] at hp
        exact (List.mem_filter.mp hp).1
      · rw [setAt_ne _ _ e] at hp; exact hp
    have keep : j ≠ i → (i, ch) ∈ w.maps k →
        (i, ch) ∈ (setAt w.maps k2 ((w.maps k2).filter fun p => decide (p.1 ≠ j))) k := by
      intro hj hm
      by_cases e : k = k2
      · subst e
        rw [setAt_self]
        refine List.mem_filter.mpr ⟨hm, ?_⟩
        simpa using fun e => hj e.symm
      · rw [setAt_ne _ _ e]; exact hm
    refine ⟨⟨s, hs, core' (by simp) (by simp) (by simp) (by simp), fun hu hm => ?_⟩, hpre', hlink, honly,
      hch, fun k' p hp => hco k' p (mem k' p hp), fun k' p hp => hio k' p (mem k' p hp), hna,
      fun x hx => hha x (List.mem_filter.mp hx).1, ?_, fun hu hd => ?_⟩
    · rw [want' (by simp)]; exact hq hu (mem k _ hm)
    · simp only
      rcases hth with hm | hm
      · by_cases hj : j = i
        · subst hj
          have := hha _ hh2 rfl
          simp only [Prod.mk.injEq, true_and] at this
          obtain ⟨rfl, rfl⟩ := this
          refine .inr (List.mem_append_left _ (List.mem_map.mpr ⟨_, List.mem_filter.mpr ⟨hm, ?_⟩, rfl⟩))
          simp
        · exact .inl (keep hj hm)
      · exact .inr (List.mem_append_right _ hm)
    · have hj : j ≠ i := by
        intro e
        subst e
        have := hha _ hh2 rfl
        simp only [Prod.mk.injEq, true_and] at this
        obtain ⟨rfl, rfl⟩ := this
        exact (not_mem_snoc hd).2 rfl
      exact keep hj (hk' hu hd)
  | restart => exact absurd rfl hr

theorem Before.register {i : Nat} {db : String} {owner : Owner} {c ch : Nat} {h tr : List Label}
    {w w' : World} (b : Before i db owner c h w) (ok : w.Ok tr) (st : Step w (.registered c i ch) w') :
    ∃ k, After i db owner c k ch (h ++ [.registered c i ch]) w' ∧ (i, ch) ∈ w'.maps k := by
  obtain ⟨⟨s, hs, hc, hq⟩, hsil, hw, hn⟩ := b
  generalize hlab : Label.registered c i ch = l at st
  cases st with
  | register c2 j k tp ha hl =>
    simp only [Label.registered.injEq] at hlab
    obtain ⟨rfl, rfl, rfl⟩ := hlab
    have fold : (h ++ [Label.registered c i w.chans]).foldl (topicStep i owner) (some []) =
        h.foldl (topicStep i owner) (some []) := by
      rw [List.foldl_append]
      exact topicStep_skip (by simp) (by simp) (by simp) (by simp)
    have want : wanted i db owner [] (h ++ [.registered c i w.chans]) = [] := by
      rw [wanted_snoc, emit_skip (by simp), hn]; rfl
    have mem : ∀ k', ∀ p ∈ (setAt w.maps k ((i, w.chans) :: (w.maps k).filter fun p => decide (p.1 ≠ i))) k',
        (p ∈ w.maps k') ∨ (k' = k ∧ p = (i, w.chans)) := by
      intro k' p hp
      by_cases e : k' = k
      · subst e
        rw [setAt_self, List.mem_cons] at hp
        rcases hp with rfl | hp
        · exact .inr ⟨rfl, rfl⟩
        · exact .inl (List.mem_filter.mp hp).1
      · rw [setAt_ne _ _ e] at hp; exact .inl hp
    have inn : (i, w.chans) ∈
        (setAt w.maps k ((i, w.chans) :: (w.maps k).filter fun p => decide (p.1 ≠ i))) k := by
      rw [setAt_self]; exact List.mem_cons_self
    have hg := ok.gotNone w.chans (Nat.le_refl _)
    refine ⟨k, ⟨⟨s, hs, by rw [fold]; exact hc, fun _ _ => ?_⟩, ?_, ⟨tp, hl⟩, fun c' _ => hw c',
      Nat.lt_succ_self _, ?_, ?_, ?_, ?_, .inl inn, fun _ _ => inn⟩, inn⟩
    · have : w.onWire c i = [] := by
        unfold World.onWire
        rw [List.map_eq_nil_iff, List.filter_eq_nil_iff]
        intro p hp
        simpa using hw c p hp
      show w.got w.chans ++ (w.onWire c i ++ _) = _
      rw [want, this, hg, hq]; rfl
    · show w.got w.chans <+: _
      rw [hg]; exact List.nil_prefix
    · intro k' p hp e
      rcases mem k' p hp with hp | ⟨e1, e2⟩
      · have := (ok.mapsLt k' p hp).2
        omega
      · exact ⟨e1, e2⟩
    · intro k' p hp e
      rcases mem k' p hp with hp | ⟨_, e2⟩
      · exact absurd e (ok.ansMaps _ ha k' p hp)
      · exact e2
    · intro a haa e
      obtain ⟨h1, h2⟩ := List.mem_filter.mp haa
      simp only [ne_eq, decide_eq_true_eq] at h2
      exact h2 (ok.ansFun a h1 _ ha e)
    · intro x hx e
      rcases List.mem_cons.mp hx with rfl | hx
      · rfl
      · exact absurd e.symm ((ok.handles x hx).2.2 _ ha)
  | call l t ht => cases hlab; cases ht
  | _ => cases hlab

theorem World.Ok.exec {w w' : World} {tr tr' : List Label} (h : w.Ok tr) (he : Exec w tr' w')
    (hn : NoRestart tr') : w'.Ok (tr ++ tr') := by
  induction he with
  | nil => simpa using h
  | @snoc tr1 w1 l w2 ex k ih =>
    rw [← List.append_assoc]
    exact (ih fun hm => hn (List.mem_append_left _ hm)).step k
      fun e => hn (List.mem_append_right _ (by simp [e]))

theorem After.exec {i : Nat} {db : String} {owner : Owner} {c k ch : Nat} {h tr tr' : List Label}
    {w w' : World} (b : After i db owner c k ch h w) (ok : w.Ok tr) (hdb : NullFree db)
    (hh : ∀ x ∈ h, x ∈ tr) (he : Exec w tr' w') (hn : NoRestart tr') :
    After i db owner c k ch (h ++ tr') w' := by
  induction he with
  | nil => simpa using b
  | @snoc tr1 w1 l w2 ex st ih =>
    have hn1 : NoRestart tr1 := fun hm => hn (List.mem_append_left _ hm)
    rw [← List.append_assoc]
    refine (ih hn1).step (ok.exec ex hn1) hdb ?_ st fun e => hn (List.mem_append_right _ (by simp [e]))
    intro x hx
    rcases List.mem_append.mp hx with hx | hx
    · exact List.mem_append_left _ (hh x hx)
    · exact List.mem_append_right _ hx

theorem Before.exec {i : Nat} {db : String} {owner : Owner} {c : Nat} {h tr tr' : List Label}
    {w w' : World} (b : Before i db owner c h w) (ok : w.Ok tr) (hdb : NullFree db)
    (he : Exec w tr' w') (hn : NoRestart tr') (hs : ∀ t, Label.subscribed i t ∉ tr') :
    Before i db owner c (h ++ tr') w' := by
  induction he with
  | nil => simpa using b
  | @snoc tr1 w1 l w2 ex st ih =>
    have hn1 : NoRestart tr1 := fun hm => hn (List.mem_append_left _ hm)
    rw [← List.append_assoc]
    exact (ih hn1 fun t hm => hs t (List.mem_append_left _ hm)).step (ok.exec ex hn1) hdb st
      (fun e => hn (List.mem_append_right _ (by simp [e])))
      (fun t e => hs t (List.mem_append_right _ (by simp [e])))

theorem created_before {w w' : World} {i : Nat} {db : String} {c : Nat} {sid : Option Nat}
    {tr : List Label} (ok : w.Ok tr) (st : Step w (.created i db (.client c sid)) w') :
    NullFree db ∧ Before i db (.client c sid) c [] w' := by
  generalize hlab : Label.created i db (.client c sid) = l at st
  cases st with
  | create c2 sid2 db2 hdb hc =>
    simp only [Label.created.injEq, Owner.client.injEq] at hlab
    obtain ⟨rfl, rfl, rfl, rfl⟩ := hlab
    refine ⟨hdb, ⟨⟨_, (by rw [sub_create ok.ids, if_pos rfl]), ⟨rfl, rfl, rfl, by simp⟩, rfl⟩, ?_, ?_, rfl⟩⟩
    · intro T hT
      simpa using hT.symm
    · intro c' p hp
      have := ok.wireLe c' p hp
      omega
  | call l t ht => cases ht <;> cases hlab
  | _ => cases hlab

/-- Everything about a remote subscriber that was created for connection `c` and entered in the client's
map. -/
theorem remote_after (tr₁ tr₂ tr₃ : List Label) (w : World) (i : Nat) (db : String) (c : Nat)
    (sid : Option Nat) (ch : Nat)
    (he : Exec World.initial
      (tr₁ ++ .created i db (.client c sid) :: (tr₂ ++ .registered c i ch :: tr₃)) w)
    (hn : NoRestart (tr₁ ++ .created i db (.client c sid) :: (tr₂ ++ .registered c i ch :: tr₃)))
    (hs : ∀ t, Label.subscribed i t ∉ tr₂) :
    ∃ k w₄, After i db (.client c sid) c k ch (tr₂ ++ [.registered c i ch]) w₄ ∧ Exec w₄ tr₃ w ∧
      w₄.Ok (tr₁ ++ .created i db (.client c sid) :: (tr₂ ++ [.registered c i ch])) ∧ NullFree db ∧
      NoRestart tr₃ := by
  obtain ⟨w₁, w₂, e₁, st₁, e₂⟩ := exec_split he
  obtain ⟨w₃, w₄, e₃, st₂, e₄⟩ := exec_split e₂
  have n1 : NoRestart tr₁ := fun hm => hn (by simp [hm])
  have n2 : NoRestart tr₂ := fun hm => hn (by simp [hm])
  have n3 : NoRestart tr₃ := fun hm => hn (by simp [hm])
  have ok1 := e₁.ok n1
  obtain ⟨hdb, b⟩ := created_before ok1 st₁
  have ok2 := ok1.step st₁ (by simp)
  have b3 := b.exec ok2 hdb e₃ n2 hs
  have ok3 := ok2.exec e₃ n2
  obtain ⟨k, a, -⟩ := b3.register ok3 st₂
  have ok4 := ok3.step st₂ (by simp)
  refine ⟨k, w₄, ?_, e₄, ?_, hdb, n3⟩
  · simpa using a
  · simpa using ok4

theorem after_end {tr₁ tr₂ tr₃ : List Label} {w : World} {i : Nat} {db : String} {c : Nat}
    {sid : Option Nat} {ch : Nat}
    (he : Exec World.initial
      (tr₁ ++ .created i db (.client c sid) :: (tr₂ ++ .registered c i ch :: tr₃)) w)
    (hn : NoRestart (tr₁ ++ .created i db (.client c sid) :: (tr₂ ++ .registered c i ch :: tr₃)))
    (hs : ∀ t, Label.subscribed i t ∉ tr₂) :
    ∃ k, After i db (.client c sid) c k ch (tr₂ ++ .registered c i ch :: tr₃) w := by
  obtain ⟨k, w₄, a, ex, ok, hdb, n3⟩ := remote_after tr₁ tr₂ tr₃ w i db c sid ch he hn hs
  refine ⟨k, ?_⟩
  have := a.exec ok hdb (fun x hx => by
    rcases List.mem_append.mp hx with hx | hx
    · simp [hx]
    · simp only [List.mem_singleton] at hx
      simp [hx]) ex n3
  simpa using this

/-- **C67**, remote subscribers: as long as the server is not restarted, whatever any client, connection
or caller does, what a client's subscriber was given is the beginning of what it should receive: messages
of its database and of topics it was subscribed to at the time, each publication once, in order, with no
gaps. (`hs`: the client cannot subscribe before it has the subscriber.) -/
theorem C67_remote_only_wanted (tr₁ tr₂ tr₃ : List Label) (w : World) (i : Nat) (db : String) (c : Nat)
    (sid : Option Nat) (ch : Nat)
    (he : Exec World.initial
      (tr₁ ++ .created i db (.client c sid) :: (tr₂ ++ .registered c i ch :: tr₃)) w)
    (hn : NoRestart (tr₁ ++ .created i db (.client c sid) :: (tr₂ ++ .registered c i ch :: tr₃)))
    (hs : ∀ t, Label.subscribed i t ∉ tr₂) :
    w.got ch <+: wanted i db (.client c sid) [] (tr₂ ++ .registered c i ch :: tr₃) := by
  obtain ⟨k, a⟩ := after_end he hn hs
  exact a.pre

/-- **C67**, remote subscribers: while its connection is up and until it is dropped, nothing is missing:
what was given, what is on the connection and what waits in the server are together what it should
receive. Not claimed: anything after the connection is lost (see the violations below). -/
theorem C67_remote_complete_partial (tr₁ tr₂ tr₃ : List Label) (w : World) (i : Nat) (db : String) (c : Nat)
    (sid : Option Nat) (ch : Nat)
    (he : Exec World.initial
      (tr₁ ++ .created i db (.client c sid) :: (tr₂ ++ .registered c i ch :: tr₃)) w)
    (hn : NoRestart (tr₁ ++ .created i db (.client c sid) :: (tr₂ ++ .registered c i ch :: tr₃)))
    (hs : ∀ t, Label.subscribed i t ∉ tr₂) (hup : c ∈ w.up)
    (hd : ∀ k, Label.dropped k i ch ∉ tr₃) :
    w.got ch ++ (w.onWire c i ++ w.pending i) =
      wanted i db (.client c sid) [] (tr₂ ++ .registered c i ch :: tr₃) := by
  obtain ⟨k, w₄, a, ex, ok, hdb, n3⟩ := remote_after tr₁ tr₂ tr₃ w i db c sid ch he hn hs
  -- a channel that does not exist yet is not dropped
  have hd2 : Label.dropped k i ch ∉ tr₂ := by
    intro hm
    obtain ⟨w₁, w₂, e₁, st₁, e₂⟩ := exec_split he
    obtain ⟨w₃, w₄', e₃, st₂, e₄⟩ := exec_split e₂
    have n1 : NoRestart tr₁ := fun hm => hn (by simp [hm])
    have n2 : NoRestart tr₂ := fun hm => hn (by simp [hm])
    have ok2 := (e₁.ok n1).step st₁ (by simp)
    have ok3 := ok2.exec e₃ n2
    obtain ⟨xs, ys, rfl⟩ := List.append_of_mem hm
    obtain ⟨w₅, w₆, e₅, st₃, e₆⟩ := exec_split e₃
    have n5 : NoRestart xs := fun hm => n2 (by simp [hm])
    have ok5 := ok2.exec e₅ n5
    have ok6 := ok5.step st₃ (by simp)
    have lt : ch < w₆.chans := by
      generalize hlab : Label.dropped k i ch = l at st₃
      cases st₃ with
      | forget k i ch hh =>
        cases hlab
        exact (ok5.handles _ hh).2.1
      | call l t ht => cases ht <;> cases hlab
      | _ => cases hlab
    have mono : ∀ {a b : World} {t : List Label}, Exec a t b → a.chans ≤ b.chans := by
      intro a b t e
      induction e with
      | nil => exact Nat.le_refl _
      | snoc _ st ih =>
        refine Nat.le_trans ih ?_
        cases st <;> first | exact Nat.le_refl _ | exact Nat.le_succ _
    have le := mono e₆
    have eq : ch = w₃.chans := by
      generalize hlab : Label.registered c i ch = l at st₂
      cases st₂ with
      | register => cases hlab; rfl
      | call l t ht => cases ht <;> cases hlab
      | _ => cases hlab
    omega
  have a' := a.exec ok hdb (fun x hx => by
    rcases List.mem_append.mp hx with hx | hx
    · simp [hx]
    · simp only [List.mem_singleton] at hx
      simp [hx]) ex n3
  rw [List.append_assoc, List.singleton_append] at a'
  have hin := a'.kept hup (by simp [hd2, hd k])
  obtain ⟨s, h1, -, h3⟩ := a'.sub
  have := h3 hup hin
  unfold World.pending
  rw [h1]
  exact this

/-- A closed channel stays closed. -/
theorem Exec.closed_mono {w w' : World} {tr : List Label} (he : Exec w tr w') {ch : Nat}
    (h : ch ∈ w.closed) : ch ∈ w'.closed := by
  induction he with
  | nil => exact h
  | snoc _ st ih =>
    cases st with
    | lose c k tp hl hup =>
      simp only
      split
      · exact List.mem_append_right _ ih
      · exact ih
    | register => exact List.mem_append_right _ ih
    | forget => exact List.mem_append_right _ ih
    | _ => exact ih

theorem Exec.links_mono {w w' : World} {tr : List Label} (he : Exec w tr w') :
    w.links <+: w'.links := by
  induction he with
  | nil => exact List.prefix_rfl
  | snoc _ st ih =>
    cases st with
    | connect => exact ih.trans (List.prefix_append ..)
    | _ => exact ih

/-- **C67**: when a WebSocket connection is lost after the client has entered the subscriber in its map,
the subscriber's channel is closed: its user is told that no more messages will come. -/
theorem C67_told_partial (tr₁ tr₂ tr₃ : List Label) (w : World) (i : Nat) (db : String) (c k : Nat)
    (sid : Option Nat) (ch : Nat)
    (he : Exec World.initial
      (tr₁ ++ .created i db (.client c sid) :: (tr₂ ++ .registered c i ch :: tr₃)) w)
    (hn : NoRestart (tr₁ ++ .created i db (.client c sid) :: (tr₂ ++ .registered c i ch :: tr₃)))
    (hs : ∀ t, Label.subscribed i t ∉ tr₂) (hl : w.links[c]? = some (k, .webSocket))
    (hlost : Label.lost c ∈ tr₃) : ch ∈ w.closed := by
  obtain ⟨xs, ys, rfl⟩ := List.append_of_mem hlost
  obtain ⟨k', w₄, a, ex, ok, hdb, n3⟩ := remote_after tr₁ tr₂ _ w i db c sid ch he hn hs
  obtain ⟨w₅, w₆, e₅, st, e₆⟩ := exec_split ex
  have n5 : NoRestart xs := fun hm => n3 (by simp [hm])
  have a5 := a.exec ok hdb (fun x hx => by
    rcases List.mem_append.mp hx with hx | hx
    · simp [hx]
    · simp only [List.mem_singleton] at hx
      simp [hx]) e₅ n5
  refine e₆.closed_mono ?_
  have hpre := e₆.links_mono
  generalize hlab : Label.lost c = l at st
  cases st with
  | lose c2 k2 tp hl2 hup =>
    cases hlab
    have hl' : w.links[c]? = some (k2, tp) := by
      obtain ⟨r, hr⟩ := hpre
      have hr : w₅.links ++ r = w.links := hr
      have hlt : c < w₅.links.length := (List.getElem?_eq_some_iff.mp hl2).1
      rw [← hr, List.getElem?_append_left hlt]
      exact hl2
    rw [hl] at hl'
    simp only [Option.some.injEq, Prod.mk.injEq] at hl'
    obtain ⟨rfl, rfl⟩ := hl'
    obtain ⟨tp0, hl0⟩ := a5.link
    rw [hl2] at hl0
    simp only [Option.some.injEq, Prod.mk.injEq] at hl0
    obtain ⟨rfl, -⟩ := hl0
    simp only [if_true]
    rcases a5.there with hm | hm
    · exact List.mem_append_left _ (List.mem_map.mpr ⟨_, hm, rfl⟩)
    · exact List.mem_append_right _ hm
  | call l t ht => cases ht <;> cases hlab
  | _ => cases hlab

end Bonsai.Pubsub
