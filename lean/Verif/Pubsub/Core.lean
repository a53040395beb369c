import Verif.Pubsub.Model

/-!
# Publish/subscribe: lemmas about the subscribers
-/
set_option linter.unusedSimpArgs false
set_option linter.unusedVariables false

namespace Bonsai.Pubsub
open Bonsai Bonsai.Names

theorem setAt_self {β : Type} (f : Nat → β) (a : Nat) (b : β) : setAt f a b a = b := by simp [setAt]

theorem setAt_ne {β : Type} (f : Nat → β) {a x : Nat} (b : β) (h : x ≠ a) : setAt f a b x = f x := by
  simp [setAt, h]

/-- Ids are given out in increasing order. -/
def Table.Ids (t : Table) : Prop := ∀ p ∈ t.subs, p.1 ≤ t.lastId

theorem find_map {α : Type} (l : List (Nat × α)) (f : Nat → α → α) (j : Nat) :
    ((l.map fun p => (p.1, f p.1 p.2)).find? fun p => decide (p.1 = j)) =
      (l.find? fun p => decide (p.1 = j)).map fun p => (p.1, f p.1 p.2) := by
  induction l with
  | nil => rfl
  | cons p l ih =>
    simp only [List.map_cons, List.find?_cons]
    by_cases h : p.1 = j
    · simp [h]
    · simp only [h, decide_false]
      exact ih

theorem sub_alter (t : Table) (i j : Nat) (f : Sub → Sub) :
    (t.alter i f).sub j = if j = i then (t.sub j).map f else t.sub j := by
  have : (t.alter i f).subs = t.subs.map fun p => (p.1, (if p.1 = i then f p.2 else p.2)) := by
    unfold Table.alter
    simp only
    apply List.map_congr_left
    intro p _
    by_cases h : p.1 = i <;> simp [h]
  unfold Table.sub
  rw [this, find_map t.subs (fun a b => if a = i then f b else b)]
  cases hf : t.subs.find? fun p => decide (p.1 = j) with
  | none => by_cases h : j = i <;> simp [h]
  | some p =>
    have := List.find?_some hf
    simp only [decide_eq_true_eq] at this
    subst this
    by_cases h : p.1 = i <;> simp [h]

theorem sub_alter_self (t : Table) (i : Nat) (f : Sub → Sub) : (t.alter i f).sub i = (t.sub i).map f := by
  rw [sub_alter, if_pos rfl]

theorem sub_alter_ne (t : Table) {i j : Nat} (f : Sub → Sub) (h : j ≠ i) : (t.alter i f).sub j = t.sub j := by
  rw [sub_alter, if_neg h]

theorem sub_publish (t : Table) (d : String) (x p : Bytes) (j : Nat) :
    (t.publish d x p).sub j = (t.sub j).map (Sub.offer ⟨databaseTopic d x, p⟩) := by
  unfold Table.publish Table.sub
  simp only
  rw [find_map t.subs (fun _ b => Sub.offer ⟨databaseTopic d x, p⟩ b)]
  cases t.subs.find? fun p => decide (p.1 = j) <;> rfl

theorem sub_logOut (t : Table) (c : Nat) (sid : Option Nat) (j : Nat) :
    (t.logOut c sid).sub j = (t.sub j).map fun s => if s.owner = .client c sid then s.finish else s := by
  have : (t.logOut c sid).subs =
      t.subs.map fun p => (p.1, (if p.2.owner = .client c sid then p.2.finish else p.2)) := by
    unfold Table.logOut
    simp only
    apply List.map_congr_left
    intro p _
    by_cases h : p.2.owner = .client c sid <;> simp [h]
  unfold Table.sub
  rw [this, find_map t.subs (fun _ b => if b.owner = .client c sid then b.finish else b)]
  cases t.subs.find? fun p => decide (p.1 = j) <;> rfl

/-- All offers of a publication. -/
def Sub.offers (d : String) (p : Bytes) (ts : List Bytes) (s : Sub) : Sub :=
  { s with queue := s.queue ++ (ts.filter fun t => databaseTopic d t ∈ s.topics).map fun t =>
      ⟨databaseTopic d t, p⟩ }

theorem offers_cons (d : String) (p x : Bytes) (ts : List Bytes) (s : Sub) :
    s.offers d p (x :: ts) = (s.offer ⟨databaseTopic d x, p⟩).offers d p ts := by
  unfold Sub.offers Sub.offer
  by_cases h : databaseTopic d x ∈ s.topics <;> simp [h]

theorem sub_publishAll (t : Table) (d : String) (ts : List Bytes) (p : Bytes) (j : Nat) :
    (t.publishAll d ts p).sub j = (t.sub j).map (Sub.offers d p ts) := by
  unfold Table.publishAll
  induction ts generalizing t with
  | nil =>
    simp only [List.foldl_nil]
    cases t.sub j <;> simp [Sub.offers]
  | cons x ts ih =>
    rw [List.foldl_cons, ih, sub_publish]
    cases t.sub j with
    | none => rfl
    | some s => simp only [Option.map_some, offers_cons]

theorem sub_create {t : Table} (h : t.Ids) (d : String) (o : Owner) (c : Option Nat) (j : Nat) :
    (t.create d o c).sub j = if j = t.lastId + 1 then some ⟨d, o, c, [], []⟩ else t.sub j := by
  unfold Table.create Table.sub
  simp only [List.find?_append, List.find?_cons, List.find?_nil]
  by_cases hj : j = t.lastId + 1
  · have : t.subs.find? (fun p => decide (p.1 = j)) = none := by
      rw [List.find?_eq_none]
      intro p hp
      have := h p hp
      simp only [decide_eq_true_eq]
      omega
    rw [this]
    simp [hj]
  · have : ¬ t.lastId + 1 = j := fun e => hj e.symm
    simp [this, hj]

theorem ids_alter {t : Table} (h : t.Ids) (i : Nat) (f : Sub → Sub) : (t.alter i f).Ids := by
  intro p hp
  simp only [Table.alter, List.mem_map] at hp ⊢
  obtain ⟨q, hq, rfl⟩ := hp
  have := h q hq
  by_cases he : q.1 = i <;> simp only [he, if_true, if_false] <;> omega

theorem ids_create {t : Table} (h : t.Ids) (d : String) (o : Owner) (c : Option Nat) :
    (t.create d o c).Ids := by
  intro p hp
  simp only [Table.create, List.mem_append, List.mem_singleton] at hp ⊢
  rcases hp with hp | rfl
  · have := h p hp; omega
  · exact Nat.le_refl _

theorem ids_publishAll {t : Table} (h : t.Ids) (d : String) (ts : List Bytes) (p : Bytes) :
    (t.publishAll d ts p).Ids ∧ (t.publishAll d ts p).lastId = t.lastId := by
  unfold Table.publishAll
  induction ts generalizing t with
  | nil => exact ⟨h, rfl⟩
  | cons x ts ih =>
    rw [List.foldl_cons]
    have : (t.publish d x p).Ids := by
      intro q hq
      simp only [Table.publish, List.mem_map] at hq ⊢
      obtain ⟨r, hr, rfl⟩ := hq
      exact h r hr
    exact ⟨(ih this).1, (ih this).2⟩

theorem ids_logOut {t : Table} (h : t.Ids) (c : Nat) (sid : Option Nat) : (t.logOut c sid).Ids := by
  intro p hp
  simp only [Table.logOut, List.mem_map] at hp ⊢
  obtain ⟨q, hq, rfl⟩ := hp
  have := h q hq
  by_cases he : q.2.owner = .client c sid <;> simp only [he, if_true, if_false] <;> exact this

theorem Table.Step.ids {t t' : Table} {l : Label} (hs : t.Step l t') (h : t.Ids) :
    t'.Ids ∧ t.lastId ≤ t'.lastId := by
  cases hs with
  | create => exact ⟨ids_create h _ _ _, Nat.le_succ _⟩
  | subscribe => exact ⟨ids_alter h _ _, Nat.le_refl _⟩
  | unsubscribe => exact ⟨ids_alter h _ _, Nat.le_refl _⟩
  | finish => exact ⟨ids_alter h _ _, Nat.le_refl _⟩
  | logOut => exact ⟨ids_logOut h _ _, Nat.le_refl _⟩
  | publish db ts p hdb =>
    exact ⟨(ids_publishAll h _ _ _).1, Nat.le_of_eq (ids_publishAll h db ts p).2.symm⟩

/-! ## What a subscriber is subscribed to -/

/-- The topics of a subscriber after one more event; `none` once it has ended. -/
def topicStep (i : Nat) (owner : Owner) (T : Option (List Bytes)) (l : Label) : Option (List Bytes) :=
  match T, l with
  | some T, .subscribed j t => some (if j = i then t :: T else T)
  | some T, .unsubscribed j t => some (if j = i then T.filter fun x => x ≠ t else T)
  | some T, .ended j => if j = i then none else some T
  | some T, .loggedOut c sid => if owner = .client c sid then none else some T
  | T, _ => T

/-- What it should receive for an event. -/
def emit (db : String) (T : Option (List Bytes)) (l : Label) : List Msg :=
  match T, l with
  | some T, .published d ts p => if d = db then (ts.filter fun t => t ∈ T).map fun t => ⟨t, p⟩ else []
  | _, _ => []

theorem topicStep_none (i : Nat) (owner : Owner) (l : Label) : topicStep i owner none l = none := by
  cases l <;> rfl

theorem topics_none (i : Nat) (owner : Owner) (tr : List Label) :
    tr.foldl (topicStep i owner) none = none := by
  induction tr with
  | nil => rfl
  | cons l tr ih => rw [List.foldl_cons, topicStep_none, ih]

theorem emit_none (db : String) (l : Label) : emit db none l = [] := by cases l <;> rfl

theorem wanted_cons (i : Nat) (db : String) (owner : Owner) (T : List Bytes) (l : Label) (tr : List Label) :
    wanted i db owner T (l :: tr) = emit db (some T) l ++
      (match topicStep i owner (some T) l with
       | some T' => wanted i db owner T' tr
       | none => []) := by
  cases l with
  | ended j => by_cases h : j = i <;> simp [wanted, emit, topicStep, h]
  | loggedOut c sid => by_cases h : owner = .client c sid <;> simp [wanted, emit, topicStep, h]
  | _ => simp [wanted, emit, topicStep]

theorem wanted_snoc (i : Nat) (db : String) (owner : Owner) (T : List Bytes) (tr : List Label) (l : Label) :
    wanted i db owner T (tr ++ [l]) =
      wanted i db owner T tr ++ emit db (tr.foldl (topicStep i owner) (some T)) l := by
  induction tr generalizing T with
  | nil =>
    rw [List.nil_append, wanted_cons]
    simp only [wanted, List.foldl_nil, List.nil_append]
    cases topicStep i owner (some T) l <;> simp
  | cons x tr ih =>
    rw [List.cons_append, wanted_cons, wanted_cons, List.foldl_cons]
    cases h : topicStep i owner (some T) x with
    | none => simp [topics_none, emit_none]
    | some T' => simp [ih, List.append_assoc]

/-- The subscriber `i` in the table, with the topics it should have. -/
def Core (i : Nat) (db : String) (owner : Owner) (conn : Option Nat) (T : Option (List Bytes)) (s : Sub) :
    Prop :=
  s.db = db ∧ s.connection = conn ∧
  (match T with
   | some T => s.owner = owner ∧ ∀ x, x ∈ s.topics ↔ ∃ y ∈ T, x = databaseTopic db y
   | none => s.owner = .nobody ∧ s.topics = [])

theorem removePrefix_databaseTopic {d : String} (h : NullFree d) (t p : Bytes) :
    removePrefix ⟨databaseTopic d t, p⟩ = ⟨t, p⟩ := by
  unfold removePrefix databaseTopic
  simp only
  rw [splitNull_append _ _ (nullFree_bytes h)]

theorem core_offers {i : Nat} {db : String} {owner : Owner} {conn : Option Nat} {T : Option (List Bytes)}
    {s : Sub} (h : Core i db owner conn T s) (hdb : NullFree db) {d : String} (hd : NullFree d)
    (ts : List Bytes) (p : Bytes) :
    Core i db owner conn T (s.offers d p ts) ∧
    (s.offers d p ts).queue.map removePrefix = s.queue.map removePrefix ++ emit db T (.published d ts p) := by
  refine ⟨h, ?_⟩
  simp only [Sub.offers, List.map_append, List.map_map]
  congr 1
  obtain ⟨h1, h2, h3⟩ := h
  cases T with
  | none =>
    simp only at h3
    simp [h3.2, emit]
  | some T =>
    simp only at h3
    have hm : ∀ t, databaseTopic d t ∈ s.topics ↔ d = db ∧ t ∈ T := by
      intro t
      rw [h3.2]
      constructor
      · rintro ⟨y, hy, he⟩
        obtain ⟨e1, e2⟩ := databaseTopic_inj hd hdb he
        exact ⟨e1, e2 ▸ hy⟩
      · rintro ⟨rfl, ht⟩
        exact ⟨t, ht, rfl⟩
    unfold emit
    simp only
    by_cases hdd : d = db
    · rw [if_pos hdd]
      have : (ts.filter fun t => decide (databaseTopic d t ∈ s.topics)) = ts.filter fun t => decide (t ∈ T) := by
        apply List.filter_congr
        intro t _
        rw [decide_eq_decide, hm]
        exact ⟨fun h => h.2, fun h => ⟨hdd, h⟩⟩
      rw [this]
      apply List.map_congr_left
      intro t _
      exact removePrefix_databaseTopic hd t p
    · rw [if_neg hdd]
      have : (ts.filter fun t => decide (databaseTopic d t ∈ s.topics)) = [] := by
        rw [List.filter_eq_nil_iff]
        intro t _
        simp [hm, hdd]
      rw [this]
      rfl

theorem core_subscribe {i : Nat} {db : String} {owner : Owner} {conn : Option Nat} {T : Option (List Bytes)}
    {s : Sub} (h : Core i db owner conn T s) (hn : s.owner ≠ .nobody) (t : Bytes) :
    Core i db owner conn (topicStep i owner T (.subscribed i t)) (s.subscribe t) := by
  obtain ⟨h1, h2, h3⟩ := h
  cases T with
  | none => exact absurd h3.1 hn
  | some T =>
    refine ⟨h1, h2, h3.1, fun x => ?_⟩
    simp only [Sub.subscribe, topicStep, if_true, List.mem_cons, h1, h3.2]
    constructor
    · rintro (rfl | ⟨y, hy, rfl⟩)
      · exact ⟨t, .inl rfl, rfl⟩
      · exact ⟨y, .inr hy, rfl⟩
    · rintro ⟨y, rfl | hy, rfl⟩
      · exact .inl rfl
      · exact .inr ⟨y, hy, rfl⟩

theorem core_unsubscribe {i : Nat} {db : String} {owner : Owner} {conn : Option Nat}
    {T : Option (List Bytes)} {s : Sub} (h : Core i db owner conn T s) (hdb : NullFree db)
    (hn : s.owner ≠ .nobody) (t : Bytes) :
    Core i db owner conn (topicStep i owner T (.unsubscribed i t)) (s.unsubscribe t) := by
  obtain ⟨h1, h2, h3⟩ := h
  cases T with
  | none => exact absurd h3.1 hn
  | some T =>
    refine ⟨h1, h2, h3.1, fun x => ?_⟩
    simp only [Sub.unsubscribe, topicStep, if_true, List.mem_filter, h1, h3.2, ne_eq, decide_eq_true_eq]
    constructor
    · rintro ⟨⟨y, hy, rfl⟩, hne⟩
      exact ⟨y, ⟨hy, fun e => hne (by rw [e])⟩, rfl⟩
    · rintro ⟨y, ⟨hy, hne⟩, rfl⟩
      exact ⟨⟨y, hy, rfl⟩, fun e => hne (databaseTopic_inj hdb hdb e).2⟩

theorem core_finish {i : Nat} {db : String} {owner : Owner} {conn : Option Nat} {T : Option (List Bytes)}
    {s : Sub} (h : Core i db owner conn T s) :
    Core i db owner conn (topicStep i owner T (.ended i)) s.finish := by
  obtain ⟨h1, h2, h3⟩ := h
  cases T with
  | none => exact ⟨h1, h2, rfl, rfl⟩
  | some T =>
    have : topicStep i owner (some T) (.ended i) = none := by simp [topicStep]
    rw [this]
    exact ⟨h1, h2, rfl, rfl⟩

/-- What a call does to the subscriber `i`. -/
theorem Table.Step.flow {i : Nat} {db : String} {owner : Owner} {conn : Option Nat}
    {T : Option (List Bytes)} {t t' : Table} {l : Label} {s : Sub} (hs : t.Step l t') (hi : t.Ids)
    (hdb : NullFree db) (hsub : t.sub i = some s) (hil : i ≤ t.lastId) (h : Core i db owner conn T s) :
    ∃ s', t'.sub i = some s' ∧ Core i db owner conn (topicStep i owner T l) s' ∧
      s'.queue.map removePrefix = s.queue.map removePrefix ++ emit db T l := by
  have id_emit : ∀ l, (∀ d ts p, l ≠ .published d ts p) →
      s.queue.map removePrefix = s.queue.map removePrefix ++ emit db T l := by
    intro l hl
    have : emit db T l = [] := by
      cases T with
      | none => exact emit_none db l
      | some T => cases l <;> first | rfl | exact absurd rfl (hl _ _ _)
    rw [this, List.append_nil]
  cases hs with
  | create d hd =>
    refine ⟨s, ?_, ?_, id_emit _ (by intros; simp)⟩
    · rw [sub_create hi, if_neg (by omega), hsub]
    · have : topicStep i owner T (.created (t.lastId + 1) d .handle) = T := by cases T <;> rfl
      rw [this]; exact h
  | subscribe o j topic hh =>
    obtain ⟨ho, s2, hs2, hso⟩ := hh
    by_cases hj : j = i
    · subst hj
      rw [hsub] at hs2
      cases hs2
      refine ⟨_, by rw [sub_alter_self, hsub]; rfl, core_subscribe h (by rw [hso]; exact ho) topic,
        id_emit _ (by intros; simp)⟩
    · refine ⟨s, by rw [sub_alter_ne _ _ (Ne.symm hj), hsub], ?_, id_emit _ (by intros; simp)⟩
      have : topicStep i owner T (.subscribed j topic) = T := by cases T <;> simp [topicStep, hj]
      rw [this]; exact h
  | unsubscribe o j topic hh =>
    obtain ⟨ho, s2, hs2, hso⟩ := hh
    by_cases hj : j = i
    · subst hj
      rw [hsub] at hs2
      cases hs2
      refine ⟨_, by rw [sub_alter_self, hsub]; rfl, core_unsubscribe h hdb (by rw [hso]; exact ho) topic,
        id_emit _ (by intros; simp)⟩
    · refine ⟨s, by rw [sub_alter_ne _ _ (Ne.symm hj), hsub], ?_, id_emit _ (by intros; simp)⟩
      have : topicStep i owner T (.unsubscribed j topic) = T := by cases T <;> simp [topicStep, hj]
      rw [this]; exact h
  | finish o j hh =>
    by_cases hj : j = i
    · subst hj
      refine ⟨_, by rw [sub_alter_self, hsub]; rfl, core_finish h, id_emit _ (by intros; simp)⟩
    · refine ⟨s, by rw [sub_alter_ne _ _ (Ne.symm hj), hsub], ?_, id_emit _ (by intros; simp)⟩
      have : topicStep i owner T (.ended j) = T := by cases T <;> simp [topicStep, hj]
      rw [this]; exact h
  | logOut c sid =>
    rw [sub_logOut, hsub]
    refine ⟨_, rfl, ?_, ?_⟩
    · obtain ⟨h1, h2, h3⟩ := h
      cases T with
      | none =>
        simp only at h3
        rw [topicStep_none]
        have hx : ¬ s.owner = .client c (some sid) := by rw [h3.1]; simp
        simp only [hx, if_false]
        exact ⟨h1, h2, h3⟩
      | some T =>
        simp only at h3
        by_cases ho : owner = .client c (some sid)
        · have : topicStep i owner (some T) (.loggedOut c (some sid)) = none := by simp [topicStep, ho]
          rw [this]
          have hx : s.owner = .client c (some sid) := by rw [h3.1, ho]
          simp only [hx, if_true]
          exact ⟨h1, h2, rfl, rfl⟩
        · have : topicStep i owner (some T) (.loggedOut c (some sid)) = some T := by simp [topicStep, ho]
          rw [this]
          have hx : ¬ s.owner = .client c (some sid) := by rw [h3.1]; exact ho
          simp only [hx, if_false]
          exact ⟨h1, h2, h3⟩
    · have : (if s.owner = .client c (some sid) then s.finish else s).queue = s.queue := by
        split <;> rfl
      rw [this]
      exact id_emit _ (by intros; simp)
  | publish d ts p hd =>
    obtain ⟨k1, k2⟩ := core_offers h hdb hd ts p
    refine ⟨_, by rw [sub_publishAll, hsub]; rfl, ?_, k2⟩
    have : topicStep i owner T (.published d ts p) = T := by cases T <;> rfl
    rw [this]
    exact k1

end Bonsai.Pubsub
