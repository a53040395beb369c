import Verif.Typed.Views

/-!
# C74: lemmas about typed views
-/
set_option linter.unusedSimpArgs false
set_option linter.unusedSectionVars false

namespace Bonsai.Typed
open Bonsai Bonsai.Names Bonsai.Query Bonsai.Store

variable {C : Coll} {V : TView C}

/-! ## Mappings -/

theorem serMapping_some {p : V.key.T × V.Value} {q : Bytes × Bytes} :
    serMapping V p = some q ↔ V.key.enc p.1 = some q.1 ∧ V.serialize p.2 = some q.2 := by
  obtain ⟨k, v⟩ := q
  unfold serMapping
  cases V.key.enc p.1 with
  | none => simp
  | some a => cases V.serialize p.2 <;> simp

theorem serMappings_cons {p : V.key.T × V.Value} {ps : List (V.key.T × V.Value)}
    {l : List (Bytes × Bytes)} :
    serMappings V (p :: ps) = some l ↔ ∃ q qs, l = q :: qs ∧ serMapping V p = some q ∧
      serMappings V ps = some qs := by
  simp only [serMappings]
  cases serMapping V p with
  | none => simp
  | some q =>
    cases serMappings V ps with
    | none => simp
    | some qs =>
      simp only [Option.some.injEq]
      constructor
      · rintro rfl; exact ⟨q, qs, rfl, rfl, rfl⟩
      · rintro ⟨_, _, rfl, rfl, rfl⟩; rfl

theorem serMappings_isSome : ∀ {ms : List (V.key.T × V.Value)},
    (serMappings V ms).isSome ↔ ∀ p ∈ ms, (V.key.enc p.1).isSome ∧ (V.serialize p.2).isSome := by
  intro ms
  induction ms with
  | nil => simp [serMappings]
  | cons p ps ih =>
    rw [Option.isSome_iff_exists]
    constructor
    · rintro ⟨l, hl⟩
      obtain ⟨q, qs, -, h1, h2⟩ := serMappings_cons.mp hl
      obtain ⟨e1, e2⟩ := serMapping_some.mp h1
      intro p' hp'
      rcases List.mem_cons.mp hp' with rfl | hp'
      · simp [e1, e2]
      · exact ih.mp (by rw [h2]; rfl) p' hp'
    · intro h
      obtain ⟨h1, h2⟩ := h p List.mem_cons_self
      obtain ⟨a, ha⟩ := Option.isSome_iff_exists.mp h1
      obtain ⟨b, hb⟩ := Option.isSome_iff_exists.mp h2
      obtain ⟨qs, hqs⟩ := Option.isSome_iff_exists.mp
        (ih.mpr fun p' hp' => h p' (List.mem_cons_of_mem _ hp'))
      exact ⟨(a, b) :: qs, serMappings_cons.mpr ⟨_, _, rfl, serMapping_some.mpr ⟨ha, hb⟩, hqs⟩⟩

theorem lastPair_cons {κ α : Type} {p : κ × α} {ms : List (κ × α)} {k : κ} {x : α} :
    LastPair (p :: ms) k x ↔ LastPair ms k x ∨ (p = (k, x) ∧ ∀ q ∈ ms, q.1 ≠ k) := by
  constructor
  · rintro ⟨pre, post, he, hn⟩
    cases pre with
    | nil =>
      simp only [List.nil_append, List.cons.injEq] at he
      exact .inr ⟨he.1, by rw [he.2]; exact hn⟩
    | cons a pre =>
      simp only [List.cons_append, List.cons.injEq] at he
      exact .inl ⟨pre, post, he.2, hn⟩
  · rintro (⟨pre, post, rfl, hn⟩ | ⟨rfl, hn⟩)
    · exact ⟨p :: pre, post, rfl, hn⟩
    · exact ⟨[], ms, rfl, hn⟩

theorem lastPair_mem {κ α : Type} {ms : List (κ × α)} {k : κ} {x : α} (h : LastPair ms k x) :
    (k, x) ∈ ms := by
  obtain ⟨pre, post, rfl, -⟩ := h; simp

theorem enc_inj {K : KeyTy} (hk : RoundTrips K) {v w : K.T} {b : Bytes} (hb : b.length < 2 ^ 64)
    (hv : K.enc v = some b) (hw : K.enc w = some b) : v = w := by
  have h1 := hk v b hv hb
  rw [hk w b hw hb] at h1
  cases h1; rfl

/-- The last value of a key among the serialized mappings. -/
theorem lastValue_serMappings (hk : RoundTrips V.key) : ∀ {ms : List (V.key.T × V.Value)} {qs},
    (∀ p ∈ ms, ∀ b, V.key.enc p.1 = some b → b.length < 2 ^ 64) → serMappings V ms = some qs →
    ∀ kb vb, lastValue qs kb = some vb ↔
      ∃ k x, LastPair ms k x ∧ V.key.enc k = some kb ∧ V.serialize x = some vb := by
  intro ms
  induction ms with
  | nil =>
    intro qs _ h kb vb
    cases h
    constructor
    · intro h; cases h
    · rintro ⟨k, x, ⟨pre, post, he, -⟩, -⟩; simp at he
  | cons p ms ih =>
    intro qs hf h kb vb
    obtain ⟨q, qs, rfl, h1, h2⟩ := serMappings_cons.mp h
    obtain ⟨e1, e2⟩ := serMapping_some.mp h1
    have ih := ih (fun p hp => hf p (List.mem_cons_of_mem _ hp)) h2
    have hfp := hf p List.mem_cons_self _ e1
    have hnone : lastValue qs kb = none ↔ ∀ p ∈ ms, V.key.enc p.1 ≠ some kb := by
      constructor
      · intro hn p hp he
        -- the mapping of `p` is in the list
        have : ∀ {l : List (V.key.T × V.Value)} {r}, serMappings V l = some r → p ∈ l →
            kb ∈ r.map (·.1) := by
          intro l
          induction l with
          | nil => intro _ _ hp; cases hp
          | cons a l ihl =>
            intro r hr hp
            obtain ⟨b, bs, rfl, g1, g2⟩ := serMappings_cons.mp hr
            rcases List.mem_cons.mp hp with rfl | hp
            · have := (serMapping_some.mp g1).1
              rw [he] at this
              cases this; simp
            · exact List.mem_cons_of_mem _ (ihl g2 hp)
        have := lastValue_isSome.mpr (this h2 hp)
        rw [hn] at this; cases this
      · intro hn
        cases hl : lastValue qs kb with
        | none => rfl
        | some v =>
          obtain ⟨k, x, hlp, hek, -⟩ := (ih kb v).mp hl
          exact absurd hek (hn _ (lastPair_mem hlp))
    simp only [lastValue]
    constructor
    · intro h
      cases hl : lastValue qs kb with
      | some v =>
        rw [hl] at h
        simp only [Option.some_or, Option.some.injEq] at h
        subst h
        obtain ⟨k, x, h1, h2⟩ := (ih kb v).mp hl
        exact ⟨k, x, lastPair_cons.mpr (.inl h1), h2⟩
      | none =>
        rw [hl] at h
        simp only [Option.none_or] at h
        by_cases hq : q.1 = kb
        · simp only [hq, if_true, Option.some.injEq] at h
          refine ⟨p.1, p.2, lastPair_cons.mpr (.inr ⟨rfl, ?_⟩), by rw [e1, hq], by rw [e2, h]⟩
          intro p' hp' he
          refine hnone.mp hl p' hp' ?_
          rw [he, e1, hq]
        · simp only [hq, if_false] at h; cases h
    · rintro ⟨k, x, hlp, hek, hex⟩
      rcases lastPair_cons.mp hlp with hlp | ⟨rfl, hn⟩
      · rw [(ih kb vb).mpr ⟨k, x, hlp, hek, hex⟩]; rfl
      · simp only at e1 e2 hfp
        rw [hek] at e1
        have e1 : kb = q.1 := by simpa using e1
        rw [hex] at e2
        have e2 : vb = q.2 := by simpa using e2
        have hl : lastValue qs kb = none := by
          rw [hnone]
          intro p' hp' he
          have := enc_inj hk (by rw [e1]; exact hfp) he hek
          exact hn p' hp' this
        rw [hl, ← e1, ← e2]; simp

/-- What the raw view emits for a document is what the typed view emits. -/
theorem rawMap_emits {s : Schema} (hv : LawfulView s V) {d : Document} {cd : CDoc C}
    (hd : CDoc.ofDocument C d = .ok cd) (kb vb : Bytes) :
    (∃ ms, V.erase.map d = some ms ∧ lastValue ms kb = some vb) ↔
      ∃ k x, TEmits V cd k x ∧ V.key.enc k = some kb ∧ V.serialize x = some vb := by
  have hraw : V.erase.map d = rawMap V d := rfl
  rw [hraw]
  simp only [rawMap, hd]
  cases hm : V.map cd with
  | none =>
    constructor
    · rintro ⟨_, h, -⟩; cases h
    · rintro ⟨k, x, ⟨ms, h, -⟩, -⟩; rw [hm] at h; cases h
  | some ms =>
    simp only
    have hfit : ∀ p ∈ ms, ∀ b, V.key.enc p.1 = some b → b.length < 2 ^ 64 :=
      fun p hp b hb => hv.fits cd ms p b hm hp hb
    constructor
    · rintro ⟨qs, hqs, hl⟩
      obtain ⟨k, x, h1, h2, h3⟩ := (lastValue_serMappings hv.key hfit hqs kb vb).mp hl
      exact ⟨k, x, ⟨ms, hm, serMappings_isSome.mp (by rw [hqs]; rfl), h1⟩, h2, h3⟩
    · rintro ⟨k, x, ⟨ms', hm', hall, hlp⟩, h2, h3⟩
      rw [hm] at hm'
      cases hm'
      obtain ⟨qs, hqs⟩ := Option.isSome_iff_exists.mp (serMappings_isSome.mpr hall)
      exact ⟨qs, hqs, (lastValue_serMappings hv.key hfit hqs kb vb).mpr ⟨k, x, hlp, h2, h3⟩⟩

/-! ## Query keys -/

theorem before_enc {K : KeyTy} {v w : K.T} {a b : Bytes} (hv : K.enc v = some a)
    (hw : K.enc w = some b) : Before K v w ↔ a < b := by
  constructor
  · rintro ⟨x, y, g1, g2, g3⟩
    rw [hv] at g1; rw [hw] at g2
    cases g1; cases g2; exact g3
  · intro h; exact ⟨a, b, hv, hw, h⟩

theorem encodeAll_mem {K : KeyTy} : ∀ {vs : List K.T} {bs}, encodeAll K vs = some bs → ∀ b,
    b ∈ bs ↔ ∃ v ∈ vs, K.enc v = some b := by
  intro vs
  induction vs with
  | nil => intro bs h b; cases h; simp
  | cons v vs ih =>
    intro bs h b
    simp only [encodeAll, Option.bind_eq_some_iff, Option.map_eq_some_iff] at h
    obtain ⟨c, hc, cs, hcs, rfl⟩ := h
    simp only [List.mem_cons, ih hcs]
    constructor
    · rintro (rfl | ⟨w, hw, he⟩)
      · exact ⟨v, .inl rfl, hc⟩
      · exact ⟨w, .inr hw, he⟩
    · rintro ⟨w, rfl | hw, he⟩
      · rw [hc] at he; cases he; exact .inl rfl
      · exact .inr ⟨w, hw, he⟩

theorem selects_iff {K : KeyTy} (hk : RoundTrips K) {q : Option (QueryKey K.T)}
    {q' : Option (QueryKey Bytes)} (hq : serKey K q = .ok q') {k : K.T} {kb : Bytes}
    (he : K.enc k = some kb) (hl : kb.length < 2 ^ 64) :
    Selects q' kb ↔ SelectsBy (Before K) q k := by
  have eqv : ∀ {v i}, K.enc v = some i → (v = k ↔ i = kb) := by
    intro v i hv
    constructor
    · rintro rfl; rw [hv] at he; cases he; rfl
    · rintro rfl; exact enc_inj hk hl hv he
  cases q with
  | none => cases hq; exact Iff.rfl
  | some q =>
    simp only [serKey] at hq
    cases hs : serialized K q with
    | none => rw [hs] at hq; cases hq
    | some qb =>
      rw [hs] at hq
      cases hq
      cases q with
      | matches_ v =>
        simp only [serialized, Option.map_eq_some_iff] at hs
        obtain ⟨i, hi, rfl⟩ := hs
        simp only [Selects, SelectsBy]
        rw [eq_comm, ← eqv hi, eq_comm]
      | multiple vs =>
        simp only [serialized, Option.map_eq_some_iff] at hs
        obtain ⟨bs, hbs, rfl⟩ := hs
        simp only [Selects, SelectsBy]
        rw [encodeAll_mem hbs]
        constructor
        · rintro ⟨v, hv, hev⟩
          rw [← (eqv hev).mpr rfl]; exact hv
        · intro h; exact ⟨k, h, he⟩
      | range r =>
        obtain ⟨x, y⟩ := r
        simp only [serialized, encodeRange, Option.map_eq_some_iff, Option.bind_eq_some_iff] at hs
        obtain ⟨rb, ⟨a, ha, z, hz, rfl⟩, rfl⟩ := hs
        simp only [Selects, SelectsBy, WithinBy, Within]
        refine and_congr ?_ ?_
        · cases x with
          | unbounded => cases ha; exact Iff.rfl
          | included v =>
            simp only [encodeBound, Option.map_eq_some_iff] at ha
            obtain ⟨i, hi, rfl⟩ := ha
            simp only
            rw [bytes_le_iff, eqv hi, before_enc hi he]
          | excluded v =>
            simp only [encodeBound, Option.map_eq_some_iff] at ha
            obtain ⟨i, hi, rfl⟩ := ha
            simp only
            rw [before_enc hi he]
        · cases y with
          | unbounded => cases hz; exact Iff.rfl
          | included v =>
            simp only [encodeBound, Option.map_eq_some_iff] at hz
            obtain ⟨i, hi, rfl⟩ := hz
            simp only
            rw [bytes_le_iff, before_enc he hi, eq_comm, ← eqv hi, eq_comm]
          | excluded v =>
            simp only [encodeBound, Option.map_eq_some_iff] at hz
            obtain ⟨i, hi, rfl⟩ := hz
            simp only
            rw [before_enc he hi]

theorem serKey_ok {K : KeyTy} {q : Option (QueryKey K.T)} (h : KeysEncodable K q) :
    ∃ q', serKey K q = .ok q' := by
  cases q with
  | none => exact ⟨none, rfl⟩
  | some q =>
    obtain ⟨s, hs, -⟩ := C19_serializing_succeeds K q (by
      intro v hv; obtain ⟨b, hb, -⟩ := h v hv; rw [hb]; rfl)
    exact ⟨some s, by simp [serKey, hs]⟩

/-! ## Collecting -/

theorem collect_mem {α β : Type} {f : α → Except TErr β} {l : List α} {bs : List β}
    (h : collect f l = .ok bs) (b : β) : b ∈ bs ↔ ∃ a ∈ l, f a = .ok b := by
  have hm := collect_map h
  constructor
  · intro hb
    have : (Except.ok b : Except TErr β) ∈ l.map f := by rw [hm]; exact List.mem_map.mpr ⟨b, hb, rfl⟩
    obtain ⟨a, ha, he⟩ := List.mem_map.mp this
    exact ⟨a, ha, he⟩
  · rintro ⟨a, ha, he⟩
    have : f a ∈ bs.map Except.ok := by rw [← hm]; exact List.mem_map.mpr ⟨a, ha, rfl⟩
    obtain ⟨b', hb', e⟩ := List.mem_map.mp this
    rw [he] at e; cases e; exact hb'

theorem collect_pairwise {α β : Type} {f : α → Except TErr β} {P : α → α → Prop} {Q : β → β → Prop} :
    ∀ {l : List α} {bs : List β}, collect f l = .ok bs → l.Pairwise P →
    (∀ a ∈ l, ∀ a' ∈ l, ∀ b b', f a = .ok b → f a' = .ok b' → P a a' → Q b b') → bs.Pairwise Q := by
  intro l
  induction l with
  | nil => intro bs h _ _; cases h; exact .nil
  | cons x l ih =>
    intro bs h hp himp
    simp only [collect] at h
    cases hx : f x with
    | error e => rw [hx] at h; cases h
    | ok b =>
      rw [hx] at h
      simp only at h
      cases hc : collect f l with
      | error e => rw [hc] at h; cases h
      | ok bs' =>
        rw [hc] at h
        cases h
        obtain ⟨h1, h2⟩ := List.pairwise_cons.mp hp
        refine List.pairwise_cons.mpr ⟨?_, ih hc h2 fun a ha a' ha' =>
          himp a (List.mem_cons_of_mem _ ha) a' (List.mem_cons_of_mem _ ha')⟩
        intro b' hb'
        obtain ⟨a, ha, hfa⟩ := (collect_mem hc b').mp hb'
        exact himp x List.mem_cons_self a (List.mem_cons_of_mem _ ha) b b' hx hfa (h1 a ha)

theorem collect_take {α β : Type} {f : α → Except TErr β} {l : List α} {bs : List β}
    (h : collect f l = .ok bs) (l' : List α) (hp : l' <+: l) :
    ∃ bs', collect f l' = .ok bs' ∧ bs' <+: bs ∧ bs'.length = l'.length := by
  obtain ⟨r, rfl⟩ := hp
  induction l' generalizing bs with
  | nil => exact ⟨[], rfl, List.nil_prefix, rfl⟩
  | cons x l ih =>
    simp only [List.cons_append, collect] at h
    cases hx : f x with
    | error e => rw [hx] at h; cases h
    | ok b =>
      rw [hx] at h
      simp only at h
      cases hc : collect f (l ++ r) with
      | error e => rw [hc] at h; cases h
      | ok bs1 =>
        rw [hc] at h
        cases h
        obtain ⟨bs', g1, ⟨t, g2⟩, g3⟩ := ih hc
        exact ⟨b :: bs', by simp [collect, hx, g1], ⟨t, by rw [← g2]; rfl⟩, by simp [g3]⟩

/-! ## The query -/

/-- The documents a view shows are documents of the collection. -/
def TypedDocs (C : Coll) (D : Bytes → Option Document) : Prop :=
  ∀ id d, D id = some d → ∃ cd : CDoc C, CDoc.ofDocument C d = .ok cd ∧
    documentId C.key cd.header.id = .ok id ∧ d.header = ⟨id, cd.header.revision⟩

theorem ofDocument_header {d : Document} {cd : CDoc C} (h : CDoc.ofDocument C d = .ok cd) :
    CHeader.ofHeader C.key d.header = .ok cd.header := by
  unfold CDoc.ofDocument at h
  cases h1 : deser C d.contents with
  | error e => rw [h1] at h; cases h
  | ok x =>
    rw [h1] at h
    simp only at h
    cases h2 : CHeader.ofHeader C.key d.header with
    | error e => rw [h2] at h; cases h
    | ok hd => rw [h2] at h; cases h; rfl

theorem decodeMapped_of {s : Schema} (hv : LawfulView s V) {m : Mapped} {k : V.key.T} {x : V.Value}
    {h : CHeader C.key} (hk : V.key.enc k = some m.key)
    (hl : m.key.length < 2 ^ 64) (hx : V.serialize x = some m.value)
    (hh : CHeader.ofHeader C.key m.source = .ok h) : decodeMapped V m = .ok ⟨h, k, x⟩ := by
  simp only [decodeMapped, decodeId, hv.key k m.key hk hl, deserValue, hv.values x _ hx, hh]

/-- A mapping of the stored view, typed. -/
theorem stored_typed {s : Schema} (hv : LawfulView s V) {es : OMap ViewEntry} (hwf : ViewWF es)
    {D : Bytes → Option Document} (hD : TypedDocs C D)
    (hf : ∀ id key, found es key id = expect V.erase (D id) key) (kb : Bytes) (m : EntryMapping) :
    m ∈ mappingsOf (es.get kb) ↔ ∃ id d cd k x, D id = some d ∧ CDoc.ofDocument C d = .ok cd ∧
      TEmits V cd k x ∧ V.key.enc k = some kb ∧ V.serialize x = some m.value ∧ m.source = d.header := by
  constructor
  · intro hm
    have h1 := findId_of_mem (hwf.nodup kb) hm
    rw [← found_eq, hf, expect_some] at h1
    obtain ⟨d, ms, hd, hms, hsrc, hl⟩ := h1
    obtain ⟨cd, hcd, -, -⟩ := hD _ d hd
    obtain ⟨k, x, he, hk, hx⟩ := (rawMap_emits hv hcd kb m.value).mp ⟨ms, hms, hl⟩
    exact ⟨_, d, cd, k, x, hd, hcd, he, hk, hx, hsrc⟩
  · rintro ⟨id, d, cd, k, x, hd, hcd, he, hk, hx, hsrc⟩
    obtain ⟨ms, hms, hl⟩ := (rawMap_emits hv hcd kb m.value).mpr ⟨k, x, he, hk, hx⟩
    have h1 : found es kb id = some m := by
      rw [hf, expect_some]
      exact ⟨d, ms, hd, hms, hsrc, hl⟩
    rw [found_eq] at h1
    exact (findId_mem h1).1

theorem emits_fits {s : Schema} (hv : LawfulView s V) {cd : CDoc C} {k x b} (h : TEmits V cd k x)
    (hb : V.key.enc k = some b) : b.length < 2 ^ 64 := by
  obtain ⟨ms, hm, -, hl⟩ := h
  exact hv.fits cd ms (k, x) b hm (lastPair_mem hl) hb

theorem queryByName_prefix (es : OMap ViewEntry) (q : Option (QueryKey Bytes)) (o : Sort')
    (limit : Option Nat) : queryByName es q o limit <+: queryByName es q o none := by
  cases limit with
  | none => exact List.prefix_refl _
  | some n =>
    cases q with
    | none => exact (C34_limit_counts_keys_partial es none trivial o n).2
    | some q => cases q with
      | range r => exact (C34_limit_counts_keys_partial es (some (.range r)) trivial o n).2
      | matches_ k => exact List.prefix_refl _
      | multiple ks => exact List.prefix_refl _

/-- The raw results and their typed form. -/
theorem query_core {s : Schema} (hv : LawfulView s V) {es : OMap ViewEntry} (hwf : ViewWF es)
    {D : Bytes → Option Document} (hD : TypedDocs C D)
    (hf : ∀ id key, found es key id = expect V.erase (D id) key) (b : ViewSettings V.key)
    {q : Option (QueryKey Bytes)} (hq : serKey V.key b.key = .ok q) :
    ∃ rs, query V es b = .ok rs ∧
      collect (decodeMapped V) (queryByName es q b.order b.limit) = .ok rs ∧
      (∀ m ∈ queryByName es q b.order b.limit, ∃ r, decodeMapped V m = .ok r ∧
        V.key.enc r.key = some m.key ∧ m.key.length < 2 ^ 64 ∧ V.serialize r.value = some m.value ∧
        ∃ id d cd, D id = some d ∧ CDoc.ofDocument C d = .ok cd ∧ r.source = cd.header ∧
          m.source = d.header ∧ TEmits V cd r.key r.value) ∧
      (b.limit = none → ∀ r, r ∈ rs ↔ SelectsBy (Before V.key) b.key r.key ∧
        ∃ id d cd, D id = some d ∧ CDoc.ofDocument C d = .ok cd ∧ r.source = cd.header ∧
          TEmits V cd r.key r.value) := by
  have hdec : ∀ m ∈ queryByName es q b.order none, ∃ r, decodeMapped V m = .ok r ∧
        V.key.enc r.key = some m.key ∧ m.key.length < 2 ^ 64 ∧ V.serialize r.value = some m.value ∧
        ∃ id d cd, D id = some d ∧ CDoc.ofDocument C d = .ok cd ∧ r.source = cd.header ∧
          m.source = d.header ∧ TEmits V cd r.key r.value := by
    intro m hm
    obtain ⟨-, hmem⟩ := (C34_query_exact es hwf q b.order m).mp hm
    obtain ⟨id, d, cd, k, x, hd, hcd, he, hk, hx, hsrc⟩ := (stored_typed hv hwf hD hf m.key _).mp hmem
    simp only at hx hsrc
    have hlen := emits_fits hv he hk
    refine ⟨⟨cd.header, k, x⟩, decodeMapped_of hv hk hlen hx (by rw [hsrc]; exact ofDocument_header hcd),
      hk, hlen, hx, id, d, cd, hd, hcd, rfl, hsrc, he⟩
  have hpre := queryByName_prefix es q b.order b.limit
  have hdec' : ∀ m ∈ queryByName es q b.order b.limit, _ := fun m hm => hdec m (hpre.subset hm)
  obtain ⟨rs, hrs, -⟩ := collect_ok (f := decodeMapped V) (l := queryByName es q b.order b.limit)
    fun m hm => let ⟨r, h, _⟩ := hdec' m hm; ⟨r, h⟩
  refine ⟨rs, by simp only [query, hq, hrs], hrs, hdec', ?_⟩
  intro hlim r
  rw [hlim] at hrs
  rw [collect_mem hrs]
  constructor
  · rintro ⟨m, hm, hr⟩
    obtain ⟨r', h1, h2, h3, h4, id, d, cd, h5, h6, h7, h8, h9⟩ := hdec m hm
    rw [hr] at h1
    cases h1
    exact ⟨(selects_iff hv.key hq h2 h3).mp ((C34_query_exact es hwf q b.order m).mp hm).1,
      id, d, cd, h5, h6, h7, h9⟩
  · rintro ⟨hsel, id, d, cd, hd, hcd, hsrc, he⟩
    obtain ⟨src, k, x⟩ := r
    simp only at hsrc he hsel
    subst hsrc
    have he' := he
    obtain ⟨ms, hms, hall, hlp⟩ := he
    obtain ⟨g1, g2⟩ := hall (k, x) (lastPair_mem hlp)
    obtain ⟨kb, hkb⟩ := Option.isSome_iff_exists.mp g1
    obtain ⟨xb, hxb⟩ := Option.isSome_iff_exists.mp g2
    simp only at hkb hxb
    have hlen := emits_fits hv he' hkb
    refine ⟨⟨d.header, kb, xb⟩, ?_, decodeMapped_of hv hkb hlen hxb (ofDocument_header hcd)⟩
    rw [C34_query_exact es hwf]
    exact ⟨(selects_iff hv.key hq hkb hlen).mpr hsel,
      (stored_typed hv hwf hD hf kb _).mpr ⟨id, d, cd, k, x, hd, hcd, he', hkb, hxb, rfl⟩⟩

end Bonsai.Typed
