import Verif.Views.Mapper
import Verif.Store.Run

/-!
# What document transactions do to views
-/
set_option linter.unusedSimpArgs false

namespace Bonsai.Store
open Bonsai Bonsai.Names

/-- Put or remove one document. -/
def Trees.write (t : Trees) (c : QName) (id : Bytes) (d : Option Document) : Trees :=
  { t with docs := upd t.docs c (match d with | some d => (t.docs c).set id d | none => (t.docs c).remove id) }

theorem write_get (t : Trees) (c c' : QName) (id id' : Bytes) (d : Option Document) :
    ((t.write c id d).docs c').get id' = if c' = c ∧ id' = id then d else (t.docs c').get id' := by
  unfold Trees.write
  by_cases hc : c' = c
  · subst hc
    by_cases hi : id = id'
    · subst hi; cases d <;> simp
    · have hi' : id' ≠ id := fun e => hi e.symm
      cases d <;> simp [hi', OMap.get_set_ne _ hi, OMap.get_remove_ne _ hi]
  · simp [hc, upd_ne]

theorem updateStored_id {s : Schema} {c old id check x d h}
    (he : updateStored s c old id check x = .ok (some d, h)) : d.header.id = id ∧ h = d.header := by
  unfold updateStored at he
  split at he
  · split at he
    · split at he <;> simp at he
      obtain ⟨rfl, rfl⟩ := he
      exact ⟨rfl, rfl⟩
    · cases he
  · split at he
    · simp at he
      obtain ⟨rfl, rfl⟩ := he
      exact ⟨rfl, rfl⟩
    · cases he

/-- An operation either changes nothing, or writes one document of its collection, reports it, and
updates the eager views of the collection. -/
theorem execOp_shape {s : Schema} {t t' : Trees} {op : Operation} {r : OpResult}
    (h : execOp s t op = .ok (t', r)) :
    t' = t ∨ ∃ id od del, (∀ d, od = some d → d.header.id = id) ∧
      updateEagerViews s op.collection id (t.write op.collection id od) = .ok t' ∧
      changedBy r = some (op.collection, id, del) := by
  have hupd : ∀ (c : QName) (id : Bytes) (check : Option Revision) (x : Bytes),
      execUpdate s c t id check x = .ok (t', r) →
      t' = t ∨ ∃ id od del, (∀ d, od = some d → d.header.id = id) ∧
        updateEagerViews s c id (t.write c id od) = .ok t' ∧
        changedBy r = some (c, id, del) := by
    intro c id check x hx
    unfold execUpdate at hx
    split at hx
    · cases hx
    · cases hx; exact .inl rfl
    · rename_i d hd hu
      split at hx
      · cases hx
      · rename_i t2 hst
        cases hx
        obtain ⟨h1, h2⟩ := updateStored_id hu
        refine .inr ⟨id, some d, false, by rintro _ ⟨⟩; exact h1, hst, ?_⟩
        simp [changedBy, h2, h1]
  unfold execOp at h
  split at h
  · unfold execInsert at h
    split at h
    · cases h
    · rename_i id _
      split at h
      · cases h
      · split at h
        · cases h
        · rename_i t2 hst
          cases h
          refine .inr ⟨id, some _, false, by rintro _ ⟨⟩; rfl, hst, rfl⟩
  · exact hupd _ _ _ _ h
  · exact hupd _ _ _ _ h
  · rename_i hd _
    unfold execDelete at h
    split at h
    · cases h
    · split at h
      · split at h
        · cases h
        · rename_i t2 hst
          cases h
          exact .inr ⟨hd.id, none, true, by simp, hst, rfl⟩
      · cases h
  · unfold execCheck at h
    split at h
    · cases h
    · split at h
      · split at h
        · cases h
        · cases h; exact .inl rfl
      · cases h; exact .inl rfl

theorem mapBatches_single {v : View} {docs : OMap Document} {b : List Bytes}
    {st : OMap ViewEntry × OMap (List Bytes)} : mapBatches v docs [b] st = mapBatch v docs b st := by
  simp only [mapBatches]
  split <;> simp_all

/-- Updating a list of views for one document. -/
theorem updateViewList_spec {id : Bytes} : ∀ {vs : List View} {t t' : Trees},
    updateViewList vs id t = .ok t' → (vs.map (·.name)).Nodup →
    t'.docs = t.docs ∧ t'.invalidated = t.invalidated ∧
      (∀ n, n ∉ vs.map (·.name) → t'.entries n = t.entries n ∧ t'.docMap n = t.docMap n) ∧
      (∀ v ∈ vs, mapBatch v (t.docs v.name.collection) [id] (t.entries v.name, t.docMap v.name) =
        .ok (t'.entries v.name, t'.docMap v.name)) := by
  intro vs
  induction vs with
  | nil => intro t t' h _; cases h; simp
  | cons v vs ih =>
    intro t t' h hnd
    simp only [List.map_cons, List.nodup_cons] at hnd
    simp only [updateViewList] at h
    split at h
    · cases h
    · rename_i t1 h1
      unfold updateEagerView at h1
      rw [mapBatches_single] at h1
      split at h1
      · cases h1
      · rename_i es dm hb
        cases h1
        obtain ⟨hd, hi, ho, hv⟩ := ih h hnd.2
        refine ⟨hd, hi, ?_, ?_⟩
        · intro n hn
          simp only [List.map_cons, List.mem_cons, not_or] at hn
          obtain ⟨a, b⟩ := ho n hn.2
          rw [a, b]
          exact ⟨upd_ne _ _ hn.1, upd_ne _ _ hn.1⟩
        · intro w hw
          simp only [List.mem_cons] at hw
          rcases hw with rfl | hw
          · obtain ⟨a, b⟩ := ho w.name hnd.1
            rw [a, b]
            simp only [upd_self]
            exact hb
          · have hne : w.name ≠ v.name := fun e => hnd.1 (e ▸ List.mem_map.mpr ⟨w, hw, rfl⟩)
            have := hv w hw
            simp only [upd_ne _ _ hne] at this
            exact this

/-- The views of a schema have different names (schematic.rs:86-90: `ViewAlreadyRegistered`). -/
def DistinctViews (s : Schema) : Prop := (s.views.map (·.name)).Nodup

theorem eager_nodup {s : Schema} (h : DistinctViews s) (c : QName) (p : View → Bool) :
    (((s.viewsIn c).filter p).map (·.name)).Nodup := by
  refine List.Nodup.sublist (List.Sublist.map _ ?_) h
  exact List.Sublist.trans List.filter_sublist List.filter_sublist

/-- `v` is untouched by updating the eager views of another collection, or when it is lazy. -/
theorem updateEagerViews_other {s : Schema} (hd : DistinctViews s) {c : QName} {id : Bytes}
    {t t' : Trees} (h : updateEagerViews s c id t = .ok t') {v : View} (hv : v ∈ s.views)
    (hne : v.name.collection ≠ c ∨ v.policy.isEager = false) :
    t'.entries v.name = t.entries v.name ∧ t'.docMap v.name = t.docMap v.name := by
  obtain ⟨_, _, ho, _⟩ := updateViewList_spec h (eager_nodup hd c _)
  apply ho
  intro hm
  obtain ⟨w, hw, hn⟩ := List.mem_map.mp hm
  simp only [Schema.viewsIn, List.mem_filter, decide_eq_true_eq] at hw
  have hwv : w = v := by
    have := hd
    unfold DistinctViews at this
    exact inj_of_nodup_map this hw.1.1 hv hn
  subst hwv
  rcases hne with h | h
  · exact h hw.1.2
  · rw [h] at hw; simp at hw
where
  inj_of_nodup_map {l : List View} (h : (l.map (·.name)).Nodup) {a b : View} (ha : a ∈ l) (hb : b ∈ l)
      (e : a.name = b.name) : a = b := by
    induction l with
    | nil => simp at ha
    | cons x l ih =>
      simp only [List.map_cons, List.nodup_cons] at h
      simp only [List.mem_cons] at ha hb
      rcases ha with rfl | ha <;> rcases hb with rfl | hb
      · rfl
      · exact absurd (List.mem_map.mpr ⟨b, hb, e.symm⟩) h.1
      · exact absurd (List.mem_map.mpr ⟨a, ha, e⟩) h.1
      · exact ih h.2 ha hb

theorem updateEagerViews_this {s : Schema} (hd : DistinctViews s) {id : Bytes}
    {t t' : Trees} {v : View} (hv : v ∈ s.views) (he : v.policy.isEager = true)
    (h : updateEagerViews s v.name.collection id t = .ok t') :
    mapBatch v (t.docs v.name.collection) [id] (t.entries v.name, t.docMap v.name) =
      .ok (t'.entries v.name, t'.docMap v.name) := by
  obtain ⟨_, _, _, hm⟩ := updateViewList_spec h (eager_nodup hd _ _)
  apply hm
  simp [Schema.viewsIn, List.mem_filter, hv, he]

/-- The documents of the view's collection. -/
abbrev Trees.docsOf (t : Trees) (v : View) : OMap Document := t.docs v.name.collection

/-- Every document is stored under its own id. -/
def AllOwn (t : Trees) : Prop := ∀ c, OwnIds (t.docs c)

/-- The view is well formed and the document map records what it holds. -/
def ViewOK (v : View) (t : Trees) : Prop :=
  ViewWF (t.entries v.name) ∧ ∀ id, Recorded (t.entries v.name) (t.docMap v.name) id

/-- What the view shows of each document is unchanged together with the document, or is now current. -/
def Track (v : View) (t t' : Trees) : Prop := ∀ id,
  ((∀ key, found (t'.entries v.name) key id = found (t.entries v.name) key id) ∧
      (t'.docsOf v).get id = (t.docsOf v).get id) ∨
    Shows v (t'.entries v.name) id ((t'.docsOf v).get id)

theorem Track.refl (v : View) (t : Trees) : Track v t t := fun _ => .inl ⟨fun _ => rfl, rfl⟩

theorem Track.trans {v : View} {t u w : Trees} (h1 : Track v t u) (h2 : Track v u w) : Track v t w := by
  intro id
  rcases h2 id with ⟨f2, d2⟩ | h
  · rcases h1 id with ⟨f1, d1⟩ | h
    · exact .inl ⟨fun key => (f2 key).trans (f1 key), d2.trans d1⟩
    · refine .inr ⟨?_, ?_⟩
      · rw [d2]; exact h.1
      · intro key; rw [f2, d2]; exact h.2 key
  · exact .inr h

theorem recorded_congr {es es' : OMap ViewEntry} {dm dm' : OMap (List Bytes)} {id : Bytes}
    (h : Recorded es dm id) (hf : ∀ key, found es' key id = found es key id)
    (hd : dm'.get id = dm.get id) : Recorded es' dm' id := by
  intro key
  rw [hd, hf]
  exact h key

theorem execOp_own {s : Schema} (hdv : DistinctViews s) {t t' : Trees} {op : Operation} {r : OpResult}
    (h : execOp s t op = .ok (t', r)) (ho : AllOwn t) : AllOwn t' := by
  rcases execOp_shape h with rfl | ⟨id, od, del, hid, hu, _⟩
  · exact ho
  · obtain ⟨hd, _, _, _⟩ := updateViewList_spec hu (eager_nodup hdv _ _)
    intro c i d hg
    rw [hd, write_get] at hg
    split at hg
    · rename_i hc
      rw [hc.2]; exact hid d hg
    · exact ho c i d hg

/-- One operation keeps an eager view current. -/
theorem execOp_eager {s : Schema} (hdv : DistinctViews s) {t t' : Trees} {op : Operation}
    {r : OpResult} (h : execOp s t op = .ok (t', r)) {v : View} (hv : v ∈ s.views)
    (he : v.policy.isEager = true) (ho : AllOwn t) (hok : ViewOK v t) :
    ViewOK v t' ∧ t'.invalidated = t.invalidated ∧ Track v t t' := by
  rcases execOp_shape h with rfl | ⟨id, od, del, hid, hu, _⟩
  · exact ⟨hok, rfl, .refl _ _⟩
  · have hspec := updateViewList_spec hu (eager_nodup hdv _ _)
    obtain ⟨hd, hi, _, _⟩ := hspec
    by_cases hc : v.name.collection = op.collection
    · rw [← hc] at hu
      have hb := updateEagerViews_this hdv hv he hu
      have howr : AllOwn (t.write v.name.collection id od) := by
        intro c i d hg
        rw [write_get] at hg
        split at hg
        · rename_i hcc; rw [hcc.2]; exact hid d hg
        · exact ho c i d hg
      obtain ⟨w, hin, hout⟩ := mapBatch_spec (es := t.entries v.name) (dm := t.docMap v.name) hb
        hok.1 (howr _) (by simp) (fun i _ => hok.2 i)
      have hin' := hin id (by simp)
      refine ⟨⟨w, ?_⟩, by rw [hi]; rfl, ?_⟩
      · intro i
        by_cases hii : i = id
        · subst hii; exact hin'.2
        · obtain ⟨a, b⟩ := hout i (by simp [hii])
          exact recorded_congr (hok.2 i) a b
      · intro i
        by_cases hii : i = id
        · subst hii
          refine .inr ?_
          simp only [Trees.docsOf]
          rw [hd]
          rw [hc] at hin'
          rw [hc]
          exact hin'.1
        · refine .inl ⟨(hout i (by simp [hii])).1, ?_⟩
          simp only [Trees.docsOf]
          rw [hd, write_get, if_neg (fun h => hii h.2)]
    · obtain ⟨a, b⟩ := updateEagerViews_other hdv hu hv (.inl hc)
      refine ⟨?_, by rw [hi]; rfl, ?_⟩
      · unfold ViewOK
        rw [a, b]; exact hok
      · intro i
        refine .inl ⟨fun key => by rw [a]; rfl, ?_⟩
        simp only [Trees.docsOf]
        rw [hd, write_get, if_neg (fun h => hc h.1)]

/-- One operation leaves a lazy view alone, and reports the document it changed. -/
theorem execOp_lazy {s : Schema} (hdv : DistinctViews s) {t t' : Trees} {op : Operation}
    {r : OpResult} (h : execOp s t op = .ok (t', r)) {v : View} (hv : v ∈ s.views)
    (he : v.policy.isEager = false) :
    t'.entries v.name = t.entries v.name ∧ t'.docMap v.name = t.docMap v.name ∧
      t'.invalidated = t.invalidated ∧
      ∀ c id, (∀ del, changedBy r ≠ some (c, id, del)) → (t'.docs c).get id = (t.docs c).get id := by
  rcases execOp_shape h with rfl | ⟨id, od, del, hid, hu, hr⟩
  · exact ⟨rfl, rfl, rfl, fun _ _ _ => rfl⟩
  · obtain ⟨hd, hi, _, _⟩ := updateViewList_spec hu (eager_nodup hdv _ _)
    obtain ⟨a, b⟩ := updateEagerViews_other hdv hu hv (.inr he)
    refine ⟨a, b, by rw [hi]; rfl, ?_⟩
    intro c i hn
    rw [hd, write_get, if_neg]
    rintro ⟨rfl, rfl⟩
    exact hn del hr

/-! ### whole transactions -/

theorem runOps_own {s : Schema} (hdv : DistinctViews s) : ∀ {ops : List Operation} {t ch t' ch' rs},
    runOps s t ch ops = .ok (t', ch', rs) → AllOwn t → AllOwn t' := by
  intro ops
  induction ops with
  | nil => intro t ch t' ch' rs h ho; cases h; exact ho
  | cons op ops ih =>
    intro t ch t' ch' rs h ho
    simp only [runOps] at h
    split at h
    · cases h
    · rename_i t1 r1 h1
      split at h
      · cases h
      · split at h
        · cases h
        · rename_i h2
          cases h
          exact ih h2 (execOp_own hdv h1 ho)

theorem runOps_eager {s : Schema} (hdv : DistinctViews s) {v : View} (hv : v ∈ s.views)
    (he : v.policy.isEager = true) : ∀ {ops : List Operation} {t ch t' ch' rs},
    runOps s t ch ops = .ok (t', ch', rs) → AllOwn t → ViewOK v t →
    ViewOK v t' ∧ t'.invalidated = t.invalidated ∧ Track v t t' := by
  intro ops
  induction ops with
  | nil => intro t ch t' ch' rs h ho hok; cases h; exact ⟨hok, rfl, .refl _ _⟩
  | cons op ops ih =>
    intro t ch t' ch' rs h ho hok
    simp only [runOps] at h
    split at h
    · cases h
    · rename_i t1 r1 h1
      split at h
      · cases h
      · split at h
        · cases h
        · rename_i h2
          cases h
          obtain ⟨a, b, c⟩ := execOp_eager hdv h1 hv he ho hok
          obtain ⟨a', b', c'⟩ := ih h2 (execOp_own hdv h1 ho) a
          exact ⟨a', b'.trans b, c.trans c'⟩

/-- The changes record a document of a collection. -/
def Changes.has (ch : Changes) (c : QName) (id : Bytes) : Prop :=
  ∃ d ∈ ch.documents, ch.collections[d.collection]? = some c ∧ d.id = id

theorem recordChange_has {ch ch' : Changes} {o : Option (QName × Bytes × Bool)}
    (h : recordChange ch o = .ok ch') :
    (∀ c id, ch.has c id → ch'.has c id) ∧ (∀ c id del, o = some (c, id, del) → ch'.has c id) := by
  unfold recordChange at h
  split at h
  · cases h; exact ⟨fun _ _ h => h, by simp⟩
  · rename_i c id del
    split at h
    · rename_i i hi
      cases h
      refine ⟨?_, ?_⟩
      · rintro c' id' ⟨d, hd, h1, h2⟩
        exact ⟨d, by simp [hd], h1, h2⟩
      · rintro c' id' del' he
        simp only [Option.some.injEq, Prod.mk.injEq] at he
        obtain ⟨rfl, rfl, rfl⟩ := he
        refine ⟨⟨i, id, del⟩, by simp, ?_, rfl⟩
        have := List.findIdx?_eq_some_iff_getElem.mp hi
        obtain ⟨hlt, hb, _⟩ := this
        simp only [beq_iff_eq] at hb
        simp [hlt, hb]
    · split at h
      · cases h
        refine ⟨?_, ?_⟩
        · rintro c' id' ⟨d, hd, h1, h2⟩
          refine ⟨d, by simp [hd], ?_, h2⟩
          rw [List.getElem?_append_left]
          · exact h1
          · exact (List.getElem?_eq_some_iff.mp h1).1
        · rintro c' id' del' he
          simp only [Option.some.injEq, Prod.mk.injEq] at he
          obtain ⟨rfl, rfl, rfl⟩ := he
          exact ⟨⟨ch.collections.length, id, del⟩, by simp, by simp, rfl⟩
      · cases h

theorem runOps_lazy {s : Schema} (hdv : DistinctViews s) {v : View} (hv : v ∈ s.views)
    (he : v.policy.isEager = false) : ∀ {ops : List Operation} {t ch t' ch' rs},
    runOps s t ch ops = .ok (t', ch', rs) →
    t'.entries v.name = t.entries v.name ∧ t'.docMap v.name = t.docMap v.name ∧
      t'.invalidated = t.invalidated ∧ (∀ c id, ch.has c id → ch'.has c id) ∧
      (∀ c id, ¬ ch'.has c id → (t'.docs c).get id = (t.docs c).get id) := by
  intro ops
  induction ops with
  | nil => intro t ch t' ch' rs h; cases h; simp
  | cons op ops ih =>
    intro t ch t' ch' rs h
    simp only [runOps] at h
    split at h
    · cases h
    · rename_i t1 r1 h1
      split at h
      · cases h
      · rename_i ch1 hrc
        split at h
        · cases h
        · rename_i h2
          cases h
          obtain ⟨a, b, c, d⟩ := execOp_lazy hdv h1 hv he
          obtain ⟨a', b', c', m', d'⟩ := ih h2
          obtain ⟨m1, m2⟩ := recordChange_has hrc
          refine ⟨a'.trans a, b'.trans b, c'.trans c, fun c id hh => m' c id (m1 c id hh), ?_⟩
          intro c id hn
          rw [d' c id hn]
          apply d
          intro del hcb
          exact hn (m' c id (m2 c id del hcb))

/-! ### invalidation -/

theorem invalidateDoc_get {s : Schema} {c : QName} {id : Bytes} {inv : VName → OMap Unit} (n : VName)
    (i : Bytes) :
    ((invalidateDoc s c id inv n).get i).isSome ↔ ((inv n).get i).isSome ∨
      (i = id ∧ ∃ v ∈ s.views, v.name = n ∧ v.name.collection = c ∧ v.policy.isEager = false) := by
  have hgen : ∀ (vs : List View) (inv : VName → OMap Unit),
      ((vs.foldl (fun inv v => upd inv v.name ((inv v.name).set id ())) inv n).get i).isSome ↔
        ((inv n).get i).isSome ∨ (i = id ∧ ∃ v ∈ vs, v.name = n) := by
    intro vs
    induction vs with
    | nil => intro inv; simp
    | cons v vs ih =>
      intro inv
      rw [List.foldl_cons, ih]
      by_cases hn : v.name = n
      · subst hn
        simp only [upd_self, OMap.get_set, List.mem_cons]
        by_cases hi : id = i
        · subst hi; simp
        · have hi' : i ≠ id := fun e => hi e.symm
          simp [hi, hi']
      · have hn' : n ≠ v.name := fun e => hn e.symm
        rw [upd_ne _ _ hn']
        simp [hn]
  unfold invalidateDoc
  rw [hgen]
  simp only [Schema.viewsIn, List.mem_filter, decide_eq_true_eq, Bool.not_eq_true', decide_eq_false_iff_not]
  constructor
  · rintro (h | ⟨h, w, ⟨⟨h1, h2⟩, h3⟩, h4⟩)
    · exact .inl h
    · exact .inr ⟨h, w, h1, h4, h2, by simpa using h3⟩
  · rintro (h | ⟨h, w, h1, h4, h2, h3⟩)
    · exact .inl h
    · exact .inr ⟨h, w, ⟨⟨h1, h2⟩, by simpa using h3⟩, h4⟩

theorem invalidateChanged_get {s : Schema} {ch : Changes} {t : Trees} (n : VName) (i : Bytes) :
    (((invalidateChanged s ch t).invalidated n).get i).isSome ↔ ((t.invalidated n).get i).isSome ∨
      ∃ v ∈ s.views, v.name = n ∧ v.policy.isEager = false ∧ ch.has v.name.collection i := by
  unfold invalidateChanged
  simp only
  have hgen : ∀ (ds : List ChangedDocument) (inv : VName → OMap Unit),
      ((ds.foldl (fun inv d =>
        match ch.collections[d.collection]? with
        | some c => invalidateDoc s c d.id inv
        | none => inv) inv n).get i).isSome ↔ ((inv n).get i).isSome ∨
        ∃ v ∈ s.views, v.name = n ∧ v.policy.isEager = false ∧
          ∃ d ∈ ds, ch.collections[d.collection]? = some v.name.collection ∧ d.id = i := by
    intro ds
    induction ds with
    | nil => intro inv; simp
    | cons d ds ih =>
      intro inv
      rw [List.foldl_cons, ih]
      cases hc : ch.collections[d.collection]? with
      | some c =>
        simp only [invalidateDoc_get]
        constructor
        · rintro ((h | ⟨h, v, h1, h2, h3, h4⟩) | ⟨v, h1, h2, h3, x, hx, h4, h5⟩)
          · exact .inl h
          · exact .inr ⟨v, h1, h2, h4, d, by simp, by rw [hc, h3], h.symm⟩
          · exact .inr ⟨v, h1, h2, h3, x, by simp [hx], h4, h5⟩
        · rintro (h | ⟨v, h1, h2, h3, x, hx, h4, h5⟩)
          · exact .inl (.inl h)
          · simp only [List.mem_cons] at hx
            rcases hx with rfl | hx
            · rw [hc] at h4
              exact .inl (.inr ⟨h5.symm, v, h1, h2, (Option.some.inj h4).symm, h3⟩)
            · exact .inr ⟨v, h1, h2, h3, x, hx, h4, h5⟩
      | none =>
        simp only
        constructor
        · rintro (h | ⟨v, h1, h2, h3, x, hx, h4, h5⟩)
          · exact .inl h
          · exact .inr ⟨v, h1, h2, h3, x, by simp [hx], h4, h5⟩
        · rintro (h | ⟨v, h1, h2, h3, x, hx, h4, h5⟩)
          · exact .inl h
          · simp only [List.mem_cons] at hx
            rcases hx with rfl | hx
            · rw [hc] at h4; cases h4
            · exact .inr ⟨v, h1, h2, h3, x, hx, h4, h5⟩
  exact hgen _ _

/-- The view invariant: well formed, and showing the current version of every document that is not
marked for mapping. -/
def VInv (v : View) (t : Trees) : Prop :=
  ViewOK v t ∧ ∀ id, (t.invalidated v.name).get id = none →
    Shows v (t.entries v.name) id ((t.docsOf v).get id)

theorem not_isSome_none {α : Type} {o : Option α} : ¬ o.isSome = true ↔ o = none := by
  cases o <;> simp

/-- A committed document transaction keeps the invariant; what the view shows of a document is
unchanged or current. -/
theorem prepare_view {s : Schema} (hdv : DistinctViews s) {v : View} (hv : v ∈ s.views)
    {t t' : Trees} {ops : List Operation} {ch : Changes} {rs : List OpResult}
    (h : prepare s t ops = .ok (t', ch, rs)) (ho : AllOwn t) (hi : VInv v t) :
    AllOwn t' ∧ VInv v t' ∧ ∀ id,
      (∀ key, found (t'.entries v.name) key id = found (t.entries v.name) key id) ∨
        Shows v (t'.entries v.name) id ((t'.docsOf v).get id) := by
  unfold prepare at h
  split at h
  · split at h
    · cases h
    · rename_i t1 ch1 rs1 hr
      cases h
      have ho' := runOps_own hdv hr ho
      by_cases he : v.policy.isEager = true
      · obtain ⟨hok, hinv, htr⟩ := runOps_eager hdv hv he hr ho hi.1
        refine ⟨ho', ⟨hok, ?_⟩, ?_⟩
        · intro id hn
          have hn1 : (t1.invalidated v.name).get id = none := by
            rw [← not_isSome_none] at hn ⊢
            intro hc
            exact hn ((invalidateChanged_get _ _).mpr (.inl hc))
          rw [hinv] at hn1
          rcases htr id with ⟨f, d⟩ | hs
          · have := hi.2 id hn1
            refine ⟨?_, ?_⟩
            · show ∀ x, (t1.docsOf v).get id = some x → _
              rw [d]; exact this.1
            · intro key
              show found (t1.entries v.name) key id = expect v ((t1.docsOf v).get id) key
              rw [f, d]; exact this.2 key
          · exact hs
        · intro id
          rcases htr id with ⟨f, d⟩ | hs
          · exact .inl f
          · exact .inr hs
      · have he' : v.policy.isEager = false := by simpa using he
        obtain ⟨a, b, c, _, d⟩ := runOps_lazy hdv hv he' hr
        refine ⟨ho', ⟨?_, ?_⟩, ?_⟩
        · show ViewWF (t1.entries v.name) ∧ ∀ id, Recorded (t1.entries v.name) (t1.docMap v.name) id
          rw [a, b]; exact hi.1
        · intro id hn
          rw [← not_isSome_none, invalidateChanged_get, not_or] at hn
          have hd := d v.name.collection id (fun hc => hn.2 ⟨v, hv, rfl, he', hc⟩)
          have hn1 : (t.invalidated v.name).get id = none := by
            rw [← not_isSome_none, ← c]; exact hn.1
          have := hi.2 id hn1
          show Shows v (t1.entries v.name) id ((t1.docs v.name.collection).get id)
          rw [a, hd]; exact this
        · intro id
          refine .inl fun key => ?_
          show found (t1.entries v.name) key id = _
          rw [a]
  · cases h

end Bonsai.Store
