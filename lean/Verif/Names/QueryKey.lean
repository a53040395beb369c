import Verif.Key.Prims

/-!
# C19: serialization of query keys

`crates/bonsaidb-core/src/connection.rs:2264-2586`.
-/
set_option linter.unusedSimpArgs false

namespace Bonsai.Query
open Bonsai

/-- `Bound<T>`, connection.rs:2369-2379. -/
inductive Bound (α : Type) where
  | unbounded
  | included (a : α)
  | excluded (a : α)
  deriving DecidableEq

/-- `Range<T>`, connection.rs:2359-2366. -/
structure Range (α : Type) where
  start : Bound α
  stop : Bound α
  deriving DecidableEq

/-- `QueryKey`, connection.rs:2264-2277, and `SerializedQueryKey`, connection.rs:2315-2324, with
`α` the key type or bytes.  Owned and borrowed values are not distinguished. -/
inductive QueryKey (α : Type) where
  | matches_ (k : α)
  | range (r : Range α)
  | multiple (ks : List α)

/-- `collect::<Result<Vec<_>, _>>()` over `as_ord_bytes` (std). -/
def encodeAll (k : KeyTy) : List k.T → Option (List Bytes)
  | [] => some []
  | v :: vs => (k.enc v).bind fun b => (encodeAll k vs).map fun bs => b :: bs

/-- `BoundRef::as_ord_bytes`, connection.rs:2551-2566. -/
def encodeBound (k : KeyTy) : Bound k.T → Option (Bound Bytes)
  | .unbounded => some .unbounded
  | .included v => (k.enc v).map .included
  | .excluded v => (k.enc v).map .excluded

/-- `RangeRef::as_ord_bytes`, connection.rs:2490-2500. -/
def encodeRange (k : KeyTy) (r : Range k.T) : Option (Range Bytes) :=
  (encodeBound k r.start).bind fun s => (encodeBound k r.stop).map fun e => ⟨s, e⟩

/-- `QueryKey::serialized`, connection.rs:2285-2309. -/
def serialized (k : KeyTy) : QueryKey k.T → Option (QueryKey Bytes)
  | .matches_ v => (k.enc v).map .matches_
  | .range r => (encodeRange k r).map .range
  | .multiple vs => (encodeAll k vs).map .multiple

/-- `Bound::deserialize`, connection.rs:2570-2582. -/
def decodeBound (k : KeyTy) : Bound Bytes → Res (Bound k.T)
  | .unbounded => .ok .unbounded
  | .included b => (k.dec b).map .included
  | .excluded b => (k.dec b).map .excluded

/-- `Range::deserialize`, connection.rs:2505-2512: both fields read `self.start`. -/
def decodeRange (k : KeyTy) (r : Range Bytes) : Res (Range k.T) :=
  (decodeBound k r.start).bind fun s => (decodeBound k r.start).map fun e => ⟨s, e⟩

def decodeAll (k : KeyTy) : List Bytes → Res (List k.T)
  | [] => .ok []
  | b :: bs => (k.dec b).bind fun v => (decodeAll k bs).map fun vs => v :: vs

/-- `SerializedQueryKey::deserialized`, connection.rs:2328-2352. -/
def deserialized (k : KeyTy) : QueryKey Bytes → Res (QueryKey k.T)
  | .matches_ b => (k.dec b).map .matches_
  | .range r => (decodeRange k r).map .range
  | .multiple bs => (decodeAll k bs).map .multiple

/-! ## Specification -/

/-- The keys a query mentions. -/
def boundKeys {α : Type} : Bound α → List α
  | .unbounded => []
  | .included a => [a]
  | .excluded a => [a]

def keysOf {α : Type} : QueryKey α → List α
  | .matches_ k => [k]
  | .range r => boundKeys r.start ++ boundKeys r.stop
  | .multiple ks => ks

/-- Every serialized key fits in memory. -/
def Fits (q : QueryKey Bytes) : Prop := ∀ b ∈ keysOf q, b.length < 2 ^ 64

/-! ## C19 -/

theorem decodeBound_encodeBound {k : KeyTy} (hk : RoundTrips k) {b : Bound k.T} {e : Bound Bytes}
    (h : encodeBound k b = some e) (hf : ∀ x ∈ boundKeys e, x.length < 2 ^ 64) :
    decodeBound k e = .ok b := by
  cases b with
  | unbounded => simp [encodeBound] at h; subst h; rfl
  | included v =>
    cases hv : k.enc v with
    | none => simp [encodeBound, hv] at h
    | some x =>
      simp [encodeBound, hv] at h; subst h
      simp [decodeBound, hk v x hv (hf x (by simp [boundKeys]))]
  | excluded v =>
    cases hv : k.enc v with
    | none => simp [encodeBound, hv] at h
    | some x =>
      simp [encodeBound, hv] at h; subst h
      simp [decodeBound, hk v x hv (hf x (by simp [boundKeys]))]

theorem decodeAll_encodeAll {k : KeyTy} (hk : RoundTrips k) {vs : List k.T} {bs : List Bytes}
    (h : encodeAll k vs = some bs) (hf : ∀ x ∈ bs, x.length < 2 ^ 64) :
    decodeAll k bs = .ok vs := by
  induction vs generalizing bs with
  | nil => simp [encodeAll] at h; subst h; rfl
  | cons v vs ih =>
    simp only [encodeAll] at h
    cases hv : k.enc v with
    | none => simp [hv] at h
    | some b =>
      cases hvs : encodeAll k vs with
      | none => simp [hv, hvs] at h
      | some bs' =>
        simp [hv, hvs] at h; subst h
        simp [decodeAll, hk v b hv (hf b (by simp)), ih hvs (fun x hx => hf x (by simp [hx]))]

theorem encodeAll_some {k : KeyTy} : ∀ {vs : List k.T}, (∀ v ∈ vs, (k.enc v).isSome) →
    ∃ bs, encodeAll k vs = some bs := by
  intro vs
  induction vs with
  | nil => intro _; exact ⟨[], rfl⟩
  | cons v vs ih =>
    intro h
    obtain ⟨b, hb⟩ := Option.isSome_iff_exists.mp (h v (by simp))
    obtain ⟨bs, hbs⟩ := ih (fun x hx => h x (by simp [hx]))
    exact ⟨b :: bs, by simp [encodeAll, hb, hbs]⟩

theorem encodeBound_some {k : KeyTy} {b : Bound k.T} (h : ∀ v ∈ boundKeys b, (k.enc v).isSome) :
    ∃ e, encodeBound k b = some e := by
  cases b with
  | unbounded => exact ⟨.unbounded, rfl⟩
  | included v =>
    obtain ⟨b, hb⟩ := Option.isSome_iff_exists.mp (h v (by simp [boundKeys]))
    exact ⟨.included b, by simp [encodeBound, hb]⟩
  | excluded v =>
    obtain ⟨b, hb⟩ := Option.isSome_iff_exists.mp (h v (by simp [boundKeys]))
    exact ⟨.excluded b, by simp [encodeBound, hb]⟩

/-- **C19**, serializing: a query whose keys can all be encoded can be serialized, to the same shape
of query with each key replaced by its encoding. -/
theorem C19_serializing_succeeds (k : KeyTy) (q : QueryKey k.T)
    (h : ∀ v ∈ keysOf q, (k.enc v).isSome) :
    ∃ s, serialized k q = some s ∧ (keysOf s).map some = (keysOf q).map k.enc ∧
      match q, s with
      | .matches_ _, .matches_ _ => True
      | .multiple _, .multiple _ => True
      | .range a, .range b => ((boundKeys a.start).map k.enc = (boundKeys b.start).map some) ∧
          (boundKeys a.stop).map k.enc = (boundKeys b.stop).map some ∧
          ((∃ x, a.start = .included x) ↔ ∃ x, b.start = .included x) ∧
          ((∃ x, a.stop = .included x) ↔ ∃ x, b.stop = .included x)
      | _, _ => False := by
  have hall : ∀ {vs : List k.T} {bs}, encodeAll k vs = some bs → bs.map some = vs.map k.enc := by
    intro vs
    induction vs with
    | nil => intro bs h; cases h; rfl
    | cons v vs ih =>
      intro bs h
      simp only [encodeAll, Option.bind_eq_some_iff, Option.map_eq_some_iff] at h
      obtain ⟨b, hb, bs', hbs, rfl⟩ := h
      simp [hb, ih hbs]
  have hbound : ∀ {b : Bound k.T} {e}, encodeBound k b = some e →
      (boundKeys b).map k.enc = (boundKeys e).map some ∧
        ((∃ x, b = .included x) ↔ ∃ x, e = .included x) := by
    intro b e h
    cases b with
    | unbounded => cases h; simp [boundKeys]
    | included v =>
      simp only [encodeBound, Option.map_eq_some_iff] at h
      obtain ⟨x, hx, rfl⟩ := h
      simp [boundKeys, hx]
    | excluded v =>
      simp only [encodeBound, Option.map_eq_some_iff] at h
      obtain ⟨x, hx, rfl⟩ := h
      simp [boundKeys, hx]
  cases q with
  | matches_ v =>
    obtain ⟨b, hb⟩ := Option.isSome_iff_exists.mp (h v (by simp [keysOf]))
    exact ⟨.matches_ b, by simp [serialized, hb], by simp [keysOf, hb], trivial⟩
  | multiple vs =>
    obtain ⟨bs, hbs⟩ := encodeAll_some (k := k) (vs := vs) h
    exact ⟨.multiple bs, by simp [serialized, hbs], hall hbs, trivial⟩
  | range r =>
    obtain ⟨a, z⟩ := r
    obtain ⟨ea, ha⟩ := encodeBound_some (k := k) (b := a) (fun v hv => h v (by simp [keysOf, hv]))
    obtain ⟨ez, hz⟩ := encodeBound_some (k := k) (b := z) (fun v hv => h v (by simp [keysOf, hv]))
    obtain ⟨a1, a2⟩ := hbound ha
    obtain ⟨z1, z2⟩ := hbound hz
    exact ⟨.range ⟨ea, ez⟩, by simp [serialized, encodeRange, ha, hz], by simp [keysOf, a1, z1],
      a1, z1, a2, z2⟩

/-- Queries on which deserialization is the inverse of serialization: everything except a range
whose two bounds differ. -/
def NotProperRange {α : Type} : QueryKey α → Prop
  | .range r => r.start = r.stop
  | _ => True

/-- **C19 (partial).** Match and multiple-key queries survive serialization for every round-tripping
key type; ranges only when both bounds are the same (refuted otherwise below). -/
theorem C19_query_key_round_trip_partial (k : KeyTy) (hk : RoundTrips k) (q : QueryKey k.T)
    (s : QueryKey Bytes) (hs : serialized k q = some s) (hf : Fits s) (hq : NotProperRange q) :
    deserialized k s = .ok q := by
  cases q with
  | matches_ v =>
    cases hv : k.enc v with
    | none => simp [serialized, hv] at hs
    | some b =>
      simp [serialized, hv] at hs; subst hs
      simp [deserialized, hk v b hv (hf b (by simp [keysOf]))]
  | multiple vs =>
    cases hvs : encodeAll k vs with
    | none => simp [serialized, hvs] at hs
    | some bs =>
      simp [serialized, hvs] at hs; subst hs
      simp [deserialized, decodeAll_encodeAll hk hvs hf]
  | range r =>
    obtain ⟨a, z⟩ := r
    have hz : a = z := hq
    subst hz
    cases ha : encodeBound k a with
    | none => simp [serialized, encodeRange, ha] at hs
    | some e =>
      simp [serialized, encodeRange, ha] at hs; subst hs
      have := decodeBound_encodeBound hk ha (fun x hx => hf x (by simp [keysOf, hx]))
      simp [deserialized, decodeRange, this]

/-- The start bound of a range always survives. -/
theorem C19_range_start_survives (k : KeyTy) (hk : RoundTrips k) (r : Range k.T) (s : Range Bytes)
    (hs : encodeRange k r = some s) (hf : Fits (.range s)) :
    ∃ e, decodeRange k s = .ok ⟨r.start, e⟩ := by
  unfold encodeRange at hs
  cases ha : encodeBound k r.start with
  | none => simp [ha] at hs
  | some a =>
    cases hz : encodeBound k r.stop with
    | none => simp [ha, hz] at hs
    | some z =>
      simp [ha, hz] at hs; subst hs
      have := decodeBound_encodeBound hk ha (fun x hx => hf x (by simp [keysOf, hx]))
      exact ⟨r.start, by simp [decodeRange, this]⟩

/-- **C19 violated (F25).** The end of *every* range is replaced by its start: no range with
different bounds survives. -/
theorem C19_violated_range_end_lost (k : KeyTy) (hk : RoundTrips k) (r : Range k.T) (s : Range Bytes)
    (hs : encodeRange k r = some s) (hf : Fits (.range s)) :
    decodeRange k s = .ok ⟨r.start, r.start⟩ := by
  unfold encodeRange at hs
  cases ha : encodeBound k r.start with
  | none => simp [ha] at hs
  | some a =>
    cases hz : encodeBound k r.stop with
    | none => simp [ha, hz] at hs
    | some z =>
      simp [ha, hz] at hs; subst hs
      have := decodeBound_encodeBound hk ha (fun x hx => hf x (by simp [keysOf, hx]))
      simp [decodeRange, this]

/-! Non-vacuity and a concrete witness: `1..=9` over `u8` becomes `1..=1`. -/
example : serialized (uintKey 1) (.range ⟨.included 1#8, .included 9#8⟩) =
      some (.range ⟨.included [1], .included [9]⟩) ∧
    deserialized (uintKey 1) (.range ⟨.included [1], .included [9]⟩) =
      .ok (.range ⟨.included 1#8, .included 1#8⟩) := ⟨rfl, rfl⟩
example : deserialized (uintKey 1) (.multiple [[3], [4]]) = .ok (.multiple [3#8, 4#8]) :=
  C19_query_key_round_trip_partial (uintKey 1) (uint_rt 1) (.multiple [3#8, 4#8]) _ rfl
    (by intro b hb; simp [keysOf] at hb; rcases hb with rfl | rfl <;> simp) trivial

end Bonsai.Query
