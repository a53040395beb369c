import Verif.Typed.Writes

/-!
# Lemmas for C71: reads
-/
set_option linter.unusedSimpArgs false
set_option linter.unusedVariables false

namespace Bonsai.Typed
open Bonsai Bonsai.Names Bonsai.Query Bonsai.Store

variable {s : Schema} {C : Coll} {first : Option C.key.T} {next : C.key.T → Option C.key.T}
variable {S : Bytes → Prop} {db : Db}

/-- A document of the map, as a typed document. -/
def Shows (dg : Bytes → Bytes) (C : Coll) (m : TMap C) (d : CDoc C) : Prop :=
  ∃ n, m d.header.id = some (n, d.contents) ∧ IsRev dg C n d.contents d.header.revision

/-- A stored document is shown as an entry of the map. -/
theorem shown_of_stored (hl : Lawful s C first next) (hwf : DocsWF s.digest S db.trees.docs)
    (ht : WellTyped C db.trees.abs) {id d} (h : getDoc db C.name id = some d) :
    ∃ cd : CDoc C, CDoc.ofDocument C d = .ok cd ∧ documentId C.key cd.header.id = .ok id ∧
      d.header = ⟨id, cd.header.revision⟩ ∧ Shows s.digest C (mapOf C db.trees.abs) cd := by
  have habs : db.trees.abs C.name id = some (d.header.revision.id, d.contents) := by
    rw [abs_eq]; exact abs_of_get h
  obtain ⟨k, x, hk, hx⟩ := ht _ _ _ habs
  have hhd := hwf.header h
  refine ⟨⟨⟨k, d.header.revision⟩, x⟩, ?_, hk, ?_, d.header.revision.id, ?_, d.contents, hx, ?_⟩
  · have hof : CHeader.ofHeader C.key d.header = .ok ⟨k, d.header.revision⟩ := by
      have : d.header = ⟨id, d.header.revision⟩ := by rw [hhd]; rfl
      rw [this]; exact ofHeader_of hl hk
    simp only [CDoc.ofDocument, deser, hl.contents x _ hx, hof]
  · rw [hhd]; rfl
  · exact (mapOf_some hl ht hk).mpr ⟨_, habs, hx⟩
  · show d.header.revision = ⟨d.header.revision.id, s.digest d.contents⟩
    rw [hhd]; rfl

/-- An entry of the map is stored. -/
theorem stored_of_shown (hl : Lawful s C first next) (hwf : DocsWF s.digest S db.trees.docs)
    (ht : WellTyped C db.trees.abs) {cd : CDoc C} (h : Shows s.digest C (mapOf C db.trees.abs) cd) :
    ∃ id d, documentId C.key cd.header.id = .ok id ∧ getDoc db C.name id = some d ∧
      CDoc.ofDocument C d = .ok cd ∧ d.header = ⟨id, cd.header.revision⟩ := by
  obtain ⟨n, hm, b, hb, hrev⟩ := h
  obtain ⟨id, hid⟩ := mapOf_documentId hm
  obtain ⟨b', habs, hb'⟩ := (mapOf_some hl ht hid).mp hm
  rw [hb] at hb'; cases hb'
  cases hg : getDoc db C.name id with
  | none =>
    rw [abs_eq, abs_of_none hg] at habs; cases habs
  | some d =>
    rw [abs_eq, abs_of_get hg] at habs
    simp only [Option.some.injEq, Prod.mk.injEq] at habs
    obtain ⟨cd', h1, h2, h3, n', h4, b2, hb2, hr2⟩ := shown_of_stored hl hwf ht hg
    have e1 := documentId_inj hl.key h2 hid
    have e2 : d.header.revision = cd.header.revision := by
      rw [hwf.header hg, hrev]
      simp only [headerOf, habs.1, habs.2]
    have e3 : cd'.contents = cd.contents := by
      rw [e1] at h4; rw [hm] at h4; simp only [Option.some.injEq, Prod.mk.injEq] at h4; exact h4.2.symm
    have e4 : cd'.header.revision = cd.header.revision := by rw [← e2, h3]
    have : cd' = cd := by
      obtain ⟨⟨k1, r1⟩, x1⟩ := cd'
      obtain ⟨⟨k2, r2⟩, x2⟩ := cd
      simp only at e1 e3 e4
      rw [e1, e3, e4]
    subst this
    exact ⟨id, d, hid, hg, h1, h3⟩

theorem collect_ok {α β : Type} {f : α → Except TErr β} : ∀ {l : List α}, (∀ x ∈ l, ∃ b, f x = .ok b) →
    ∃ bs, collect f l = .ok bs ∧ l.map f = bs.map Except.ok := by
  intro l
  induction l with
  | nil => intro _; exact ⟨[], rfl, rfl⟩
  | cons x l ih =>
    intro h
    obtain ⟨b, hb⟩ := h x List.mem_cons_self
    obtain ⟨bs, h1, h2⟩ := ih fun y hy => h y (List.mem_cons_of_mem _ hy)
    exact ⟨b :: bs, by simp [collect, hb, h1], by simp [hb, h2]⟩

theorem collect_map {α β : Type} {f : α → Except TErr β} : ∀ {l : List α} {bs : List β},
    collect f l = .ok bs → l.map f = bs.map Except.ok := by
  intro l
  induction l with
  | nil => intro bs h; cases h; rfl
  | cons x l ih =>
    intro bs h
    simp only [collect] at h
    cases hx : f x with
    | error e => rw [hx] at h; cases h
    | ok b =>
      rw [hx] at h
      simp only at h
      cases hc : collect f l with
      | error e => rw [hc] at h; cases h
      | ok bs' => rw [hc] at h; cases h; simp [hx, ih hc]

theorem collect_err {α β : Type} {f : α → Except TErr β} : ∀ {l : List α} {e},
    collect f l = .error e → ∃ x ∈ l, f x = .error e := by
  intro l
  induction l with
  | nil => intro e h; cases h
  | cons x l ih =>
    intro e h
    simp only [collect] at h
    cases hx : f x with
    | error e' => rw [hx] at h; cases h; exact ⟨x, List.mem_cons_self, hx⟩
    | ok b =>
      rw [hx] at h
      simp only at h
      cases hc : collect f l with
      | error e' =>
        rw [hc] at h; cases h
        obtain ⟨y, hy, hfy⟩ := ih hc
        exact ⟨y, List.mem_cons_of_mem _ hy, hfy⟩
      | ok bs' => rw [hc] at h; cases h

theorem map_ok_inj {α ε : Type} : ∀ {l l' : List α},
    l.map (Except.ok (ε := ε)) = l'.map Except.ok → l = l' := by
  intro l
  induction l with
  | nil => intro l' h; cases l' with | nil => rfl | cons _ _ => simp at h
  | cons x l ih =>
    intro l' h
    cases l' with
    | nil => simp at h
    | cons y l' =>
      simp only [List.map_cons, List.cons.injEq, Except.ok.injEq] at h
      rw [h.1, ih h.2]

/-! ## Ranges -/

theorem boundIds_err {K : KeyTy} {b : Bound K.T} {e} (h : boundIds K b = .error e) :
    ∃ k ∈ boundKeys b, BadKey K k e := by
  cases b with
  | unbounded => cases h
  | included v =>
    simp only [boundIds] at h
    cases hd : documentId K v with
    | error e' => rw [hd] at h; cases h; exact ⟨v, by simp [boundKeys], documentId_err hd⟩
    | ok i => rw [hd] at h; cases h
  | excluded v =>
    simp only [boundIds] at h
    cases hd : documentId K v with
    | error e' => rw [hd] at h; cases h; exact ⟨v, by simp [boundKeys], documentId_err hd⟩
    | ok i => rw [hd] at h; cases h

theorem rangeIds_err {K : KeyTy} {r : Range K.T} {e} (h : rangeIds K r = .error e) :
    ∃ k ∈ boundKeys r.start ++ boundKeys r.stop, BadKey K k e := by
  unfold rangeIds at h
  cases ha : boundIds K r.start with
  | error e' =>
    rw [ha] at h; cases h
    obtain ⟨k, hk, hb⟩ := boundIds_err ha
    exact ⟨k, List.mem_append_left _ hk, hb⟩
  | ok a =>
    rw [ha] at h
    simp only at h
    cases hz : boundIds K r.stop with
    | error e' =>
      rw [hz] at h; cases h
      obtain ⟨k, hk, hb⟩ := boundIds_err hz
      exact ⟨k, List.mem_append_right _ hk, hb⟩
    | ok z => rw [hz] at h; cases h

theorem before_iff {K : KeyTy} {v w : K.T} {a b : Bytes} (hv : documentId K v = .ok a)
    (hw : documentId K w = .ok b) : Before K v w ↔ a < b := by
  have h1 := (documentId_ok.mp hv).1
  have h2 := (documentId_ok.mp hw).1
  constructor
  · rintro ⟨x, y, g1, g2, g3⟩
    rw [h1] at g1; rw [h2] at g2
    cases g1; cases g2; exact g3
  · intro h; exact ⟨a, b, h1, h2, h⟩

theorem within_iff {K : KeyTy} (hk : RoundTrips K) {r : Range K.T} {r' : Range Bytes}
    (hr : rangeIds K r = .ok r') {k : K.T} {id : Bytes} (hid : documentId K k = .ok id) :
    WithinBy (Before K) r k ↔ Within r' id := by
  obtain ⟨x, y⟩ := r
  unfold rangeIds at hr
  simp only at hr
  cases ha : boundIds K x with
  | error e => rw [ha] at hr; cases hr
  | ok a =>
    rw [ha] at hr
    simp only at hr
    cases hz : boundIds K y with
    | error e => rw [hz] at hr; cases hr
    | ok z =>
      rw [hz] at hr
      cases hr
      have eqv : ∀ {v i}, documentId K v = .ok i → (v = k ↔ i = id) := by
        intro v i hv
        constructor
        · rintro rfl; rw [hv] at hid; cases hid; rfl
        · rintro rfl; exact documentId_inj hk hv hid
      simp only [WithinBy, Within]
      refine and_congr ?_ ?_
      · cases x with
        | unbounded => cases ha; exact Iff.rfl
        | included v =>
          simp only [boundIds] at ha
          cases hd : documentId K v with
          | error e => rw [hd] at ha; cases ha
          | ok i =>
            rw [hd] at ha; cases ha
            simp only
            rw [bytes_le_iff, eqv hd, before_iff hd hid]
        | excluded v =>
          simp only [boundIds] at ha
          cases hd : documentId K v with
          | error e => rw [hd] at ha; cases ha
          | ok i =>
            rw [hd] at ha; cases ha
            simp only
            rw [before_iff hd hid]
      · cases y with
        | unbounded => cases hz; exact Iff.rfl
        | included v =>
          simp only [boundIds] at hz
          cases hd : documentId K v with
          | error e => rw [hd] at hz; cases hz
          | ok i =>
            rw [hd] at hz; cases hz
            simp only
            rw [bytes_le_iff, before_iff hid hd]
            have := eqv hd
            constructor
            · rintro (h | h)
              · exact .inl (this.mp h.symm).symm
              · exact .inr h
            · rintro (h | h)
              · exact .inl (this.mpr h.symm).symm
              · exact .inr h
        | excluded v =>
          simp only [boundIds] at hz
          cases hd : documentId K v with
          | error e => rw [hd] at hz; cases hz
          | ok i =>
            rw [hd] at hz; cases hz
            simp only
            rw [before_iff hid hd]

/-! ## Listings -/

/-- The typed form of an unlimited listing. -/
theorem list_all (hS : CollisionFree s.digest S) (hl : Lawful s C first next) (hr : Reachable s S db)
    (ht : WellTyped C db.trees.abs) {l : ListSettings C.key} {r : Range Bytes}
    (hrange : rangeIds C.key l.range = .ok r) :
    ∃ all : List (CDoc C),
      (listDocs db.trees C.name r l.order none).map (CDoc.ofDocument C) = all.map Except.ok ∧
      (listDocs db.trees C.name r l.order none).map (fun d => (Except.ok d.header : Except TErr Header)) =
        all.map (fun d => d.header.toHeader) ∧
      (∀ d, d ∈ all ↔ ∃ n, mapOf C db.trees.abs d.header.id = some (n, d.contents) ∧
        IsRev s.digest C n d.contents d.header.revision ∧
        WithinBy (Before C.key) l.range d.header.id) ∧
      (match l.order with
        | .ascending => all.Pairwise fun a b => Before C.key a.header.id b.header.id
        | .descending => all.Pairwise fun a b => Before C.key b.header.id a.header.id) := by
  have hwf := hr.wf hS
  have hmem := C36_list_exact s S db hr C.name r l.order
  have hsort := C36_list_sorted s S db hr C.name r none
  -- a typed document for each
  have hex : ∀ d ∈ listDocs db.trees C.name r l.order none, ∃ cd : CDoc C,
      CDoc.ofDocument C d = .ok cd ∧ documentId C.key cd.header.id = .ok d.header.id ∧
      d.header = ⟨d.header.id, cd.header.revision⟩ ∧ Shows s.digest C (mapOf C db.trees.abs) cd := by
    intro d hd
    exact shown_of_stored hl hwf ht ((hmem d).mp hd).1
  obtain ⟨all, -, hall⟩ := collect_ok (f := CDoc.ofDocument C) fun d hd =>
    let ⟨cd, h, _⟩ := hex d hd; ⟨cd, h⟩
  have hto : ∀ {l' : List Document} {all' : List (CDoc C)},
      (∀ d ∈ l', d ∈ listDocs db.trees C.name r l.order none) →
      l'.map (CDoc.ofDocument C) = all'.map Except.ok →
      l'.map (fun d => (Except.ok d.header : Except TErr Header)) = all'.map (fun d => d.header.toHeader) := by
    intro l'
    induction l' with
    | nil => intro all' _ h; cases all' with | nil => rfl | cons _ _ => simp at h
    | cons d l' ih =>
      intro all' hsub h
      cases all' with
      | nil => simp at h
      | cons cd all' =>
        simp only [List.map_cons, List.cons.injEq] at h
        obtain ⟨cd', h1, h2, h3, -⟩ := hex d (hsub d List.mem_cons_self)
        rw [h.1] at h1; cases h1
        simp only [List.map_cons, List.cons.injEq]
        refine ⟨?_, ih (fun d hd => hsub d (List.mem_cons_of_mem _ hd)) h.2⟩
        rw [h3]; exact (toHeader_of h2).symm
  have hpw : ∀ (R : Bytes → Bytes → Prop) (R' : C.key.T → C.key.T → Prop),
      (∀ v w x y, documentId C.key v = .ok x → documentId C.key w = .ok y → R x y → R' v w) →
      ∀ {l' : List Document} {all' : List (CDoc C)},
      (∀ d ∈ l', d ∈ listDocs db.trees C.name r l.order none) →
      l'.map (CDoc.ofDocument C) = all'.map Except.ok →
      l'.Pairwise (fun a b => R a.header.id b.header.id) →
      all'.Pairwise (fun a b => R' a.header.id b.header.id) := by
    intro R R' hRR l'
    induction l' with
    | nil => intro all' _ h _; cases all' with | nil => exact .nil | cons _ _ => simp at h
    | cons d l' ih =>
      intro all' hsub h hp
      cases all' with
      | nil => simp at h
      | cons cd all' =>
        simp only [List.map_cons, List.cons.injEq] at h
        obtain ⟨hp1, hp2⟩ := List.pairwise_cons.mp hp
        obtain ⟨cd', h1, h2, -, -⟩ := hex d (hsub d List.mem_cons_self)
        rw [h.1] at h1; cases h1
        refine List.pairwise_cons.mpr ⟨?_, ih (fun d hd => hsub d (List.mem_cons_of_mem _ hd)) h.2 hp2⟩
        intro e he
        have hme : (Except.ok e : Except TErr (CDoc C)) ∈ l'.map (CDoc.ofDocument C) := by
          rw [h.2]; exact List.mem_map_of_mem he
        obtain ⟨de, hde, hofe⟩ := List.mem_map.mp hme
        obtain ⟨ce, g1, g2, -, -⟩ := hex de (hsub de (List.mem_cons_of_mem _ hde))
        rw [hofe] at g1; cases g1
        exact hRR _ _ _ _ h2 g2 (hp1 de hde)
  refine ⟨all, hall, hto (fun _ h => h) hall, ?_, ?_⟩
  · intro cd
    constructor
    · intro hcd
      have : (Except.ok cd : Except TErr (CDoc C)) ∈
          (listDocs db.trees C.name r l.order none).map (CDoc.ofDocument C) := by
        rw [hall]; exact List.mem_map_of_mem hcd
      obtain ⟨d, hd, hof⟩ := List.mem_map.mp this
      obtain ⟨cd', h1, h2, h3, n, h4, h5⟩ := hex d hd
      rw [hof] at h1; cases h1
      exact ⟨n, h4, h5, (within_iff hl.key hrange h2).mpr ((hmem d).mp hd).2⟩
    · rintro ⟨n, h4, h5, h6⟩
      obtain ⟨id, d, h1, h2, h3, h7⟩ := stored_of_shown hl hwf ht ⟨n, h4, h5⟩
      have hd : d ∈ listDocs db.trees C.name r l.order none := by
        rw [hmem]
        rw [h7]
        exact ⟨h2, (within_iff hl.key hrange h1).mp h6⟩
      have : CDoc.ofDocument C d ∈ (listDocs db.trees C.name r l.order none).map (CDoc.ofDocument C) :=
        List.mem_map_of_mem hd
      rw [hall, h3] at this
      obtain ⟨e, he, hee⟩ := List.mem_map.mp this
      cases hee; exact he
  · cases ho : l.order with
    | ascending =>
      simp only
      rw [ho] at hall hpw
      exact hpw (fun x y => x < y) (Before C.key) (fun v w x y hv hw h => (before_iff hv hw).mpr h)
        (fun _ h => h) hall hsort.1
    | descending =>
      simp only
      rw [ho] at hall hpw
      exact hpw (fun x y => y < x) (fun v w => Before C.key w v)
        (fun v w x y hv hw h => (before_iff hw hv).mpr h) (fun _ h => h) hall hsort.2

theorem take_map_ok {α β : Type} {f : α → Except TErr β} {l : List α} {bs : List β}
    (h : l.map f = bs.map Except.ok) (n : Nat) :
    collect f (l.take n) = .ok (bs.take n) := by
  obtain ⟨cs, h1, h2⟩ := collect_ok (f := f) (l := l.take n) (by
    intro x hx
    have : f x ∈ l.map f := List.mem_map_of_mem (List.mem_of_mem_take hx)
    rw [h] at this
    obtain ⟨b, -, hb⟩ := List.mem_map.mp this
    exact ⟨b, hb.symm⟩)
  rw [h1]
  rw [List.map_take, h, ← List.map_take] at h2
  rw [map_ok_inj h2]

theorem collect_of_map {α β : Type} {f : α → Except TErr β} {l : List α} {bs : List β}
    (h : l.map f = bs.map Except.ok) : collect f l = .ok bs := by
  have := take_map_ok h l.length
  have hlen : bs.length = l.length := by
    have := congrArg List.length h
    simpa using this.symm
  rw [List.take_length, ← hlen, List.take_length] at this
  exact this

end Bonsai.Typed
