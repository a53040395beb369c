import Verif.Key.Lemmas
import Verif.Key.Spec

/-! Helper lemmas about composite keys. -/

set_option linter.unusedSimpArgs false

namespace Bonsai

/-- What one field contributes to the encoder. -/
def piece (m : NullMode) (k : KeyTy) (v : k.T) : Option (Bytes × List Nat) :=
  match k.enc v with
  | none => none
  | some b =>
    match k.len with
    | some _ => some (b, [])
    | none =>
      match handleNulls m b with
      | none => none
      | some b' => if b'.length ≤ 65535 then some (b' ++ [0], [b'.length]) else none

theorem encode_eq_piece (m : NullMode) (k : KeyTy) (e : Enc) (v : k.T) :
    e.encode m k v = (piece m k v).map fun p => ⟨e.bytes ++ p.1, e.lens ++ p.2⟩ := by
  unfold Enc.encode piece
  cases k.enc v with
  | none => rfl
  | some b =>
    cases k.len with
    | some n => simp
    | none =>
      dsimp only
      cases handleNulls m b with
      | none => rfl
      | some b' => dsimp only; split <;> simp

def pieces (m : NullMode) : (ks : List KeyTy) → Tuple ks → Option (Bytes × List Nat)
  | [], _ => some ([], [])
  | k :: ks, (v, vs) => (piece m k v).bind fun p => (pieces m ks vs).map fun q =>
      (p.1 ++ q.1, p.2 ++ q.2)

theorem encodeFields_eq (m : NullMode) (ks : List KeyTy) (e : Enc) (v : Tuple ks) :
    encodeFields m ks e v = (pieces m ks v).map fun p => ⟨e.bytes ++ p.1, e.lens ++ p.2⟩ := by
  induction ks generalizing e with
  | nil => simp [encodeFields, pieces]
  | cons k ks ih =>
    obtain ⟨v, vs⟩ := v
    simp only [encodeFields, pieces, encode_eq_piece]
    cases piece m k v with
    | none => rfl
    | some p =>
      simp only [Option.map_some, Option.bind_some, ih, Option.map_map]
      congr 1
      funext q
      simp

theorem encodeComposite_eq (m : NullMode) (ks : List KeyTy) (v : Tuple ks) :
    encodeComposite m ks v =
      (pieces m ks v).map fun p => p.1 ++ p.2.reverse.flatMap lenBytes := by
  simp only [encodeComposite, encodeFields_eq, Option.map_map]
  congr 1

theorem slice_mid (P X S : Bytes) : slice (P ++ X ++ S) P.length (P.length + X.length) = X := by
  unfold slice
  rw [List.append_assoc, List.drop_left, Nat.add_sub_cancel_left, List.take_left]

theorem decodeNulls_handleNulls {m : NullMode} {b b' : Bytes} (h : handleNulls m b = some b') :
    decodeNulls m b' = .ok b := by
  cases m with
  | escape => simp [handleNulls] at h; subst h; exact unescape_escape b
  | allow => simp [handleNulls] at h; subst h; rfl
  | deny =>
    simp only [handleNulls] at h
    split at h
    · contradiction
    · simp at h; subst h; rfl

theorem handleNulls_length {m : NullMode} {b b' : Bytes} (h : handleNulls m b = some b') :
    b.length ≤ b'.length ∧ b'.length = storedLength m b := by
  cases m with
  | escape => simp [handleNulls] at h; subst h; simp [escape_length, storedLength]
  | allow => simp [handleNulls] at h; subst h; simp [storedLength]
  | deny =>
    simp only [handleNulls] at h
    split at h
    · contradiction
    · simp at h; subst h; simp [storedLength]

/-- Decoding one field in the middle of a byte string: `D` is what the field contributed, `T` its
encoded length, `R` what comes between them. -/
theorem decodeField_piece {m : NullMode} {k : KeyTy} (hr : RoundTrips k) (hh : HonestLen k)
    {v : k.T} {D : Bytes} {L : List Nat} (hp : piece m k v = some (D, L)) (P R S : Bytes)
    (hb : (P ++ (D ++ R ++ L.reverse.flatMap lenBytes) ++ S).length < 2 ^ 64) :
    decodeField m k (P ++ (D ++ R ++ L.reverse.flatMap lenBytes) ++ S)
        ⟨P.length, P.length + (D ++ R ++ L.reverse.flatMap lenBytes).length⟩ =
      .ok (v, ⟨P.length + D.length, P.length + (D ++ R).length⟩) := by
  unfold piece at hp
  cases he : k.enc v with
  | none => rw [he] at hp; cases hp
  | some b =>
    rw [he] at hp
    cases hl : k.len with
    | some n =>
      rw [hl] at hp
      simp only [Option.some.injEq, Prod.mk.injEq] at hp
      obtain ⟨rfl, rfl⟩ := hp
      have hn := hh v b n he hl
      subst hn
      unfold decodeField fieldLen
      rw [hl]
      simp only [List.reverse_nil, List.flatMap_nil, List.append_nil, List.length_append] at hb ⊢
      simp only [Res.bind_ok]
      rw [if_neg (by omega), if_pos (by omega)]
      have hs : slice (P ++ (b ++ R) ++ S) P.length (P.length + b.length) = b := by
        have := slice_mid P b (R ++ S); simpa using this
      rw [hs, hr v b he (by omega)]
      simp
    | none =>
      rw [hl] at hp
      dsimp only at hp
      cases hn : handleNulls m b with
      | none => rw [hn] at hp; cases hp
      | some b' =>
        rw [hn] at hp
        dsimp only at hp
        split at hp
        case isFalse => cases hp
        case isTrue hlen =>
        simp only [Option.some.injEq, Prod.mk.injEq] at hp
        obtain ⟨rfl, rfl⟩ := hp
        simp only [List.reverse_singleton, List.flatMap_singleton] at hb ⊢
        unfold decodeField fieldLen
        rw [hl]
        dsimp only
        rw [if_neg (by omega), slice_mid]
        rw [List.reverse_append, readLen_lenBytes hlen]
        simp only [Res.map_ok, Res.bind_ok]
        have hL := (handleNulls_length hn).1
        simp only [List.length_append, List.length_singleton] at hb ⊢
        rw [if_neg (by omega), if_pos (by omega)]
        have hs : slice (P ++ (b' ++ [0] ++ R ++ lenBytes b'.length) ++ S) P.length
            (P.length + b'.length) = b' := by
          have := slice_mid P b' ([0] ++ R ++ lenBytes b'.length ++ S); simpa using this
        rw [hs, decodeNulls_handleNulls hn]
        simp only [Res.bind_ok]
        rw [hr v b he (by omega)]
        simp only [Res.map_ok, Res.ok.injEq, Prod.mk.injEq, Dec.mk.injEq, true_and]
        omega

theorem decodeFields_pieces {m : NullMode} {ks : List KeyTy}
    (hk : ∀ k ∈ ks, RoundTrips k ∧ HonestLen k)
    {v : Tuple ks} {D : Bytes} {L : List Nat} (hp : pieces m ks v = some (D, L)) (P S : Bytes)
    (hb : (P ++ (D ++ L.reverse.flatMap lenBytes) ++ S).length < 2 ^ 64) :
    ∃ o, decodeFields m ks (P ++ (D ++ L.reverse.flatMap lenBytes) ++ S)
        ⟨P.length, P.length + (D ++ L.reverse.flatMap lenBytes).length⟩ = .ok (v, ⟨o, o⟩) := by
  induction ks generalizing P D L S with
  | nil =>
    simp only [pieces, Option.some.injEq, Prod.mk.injEq] at hp
    obtain ⟨rfl, rfl⟩ := hp
    exact ⟨P.length, by simp [decodeFields]⟩
  | cons k ks ih =>
    obtain ⟨v, vs⟩ := v
    simp only [pieces] at hp
    cases h1 : piece m k v with
    | none => rw [h1] at hp; cases hp
    | some p =>
      obtain ⟨D1, L1⟩ := p
      rw [h1] at hp
      simp only [Option.bind_some] at hp
      cases h2 : pieces m ks vs with
      | none => rw [h2] at hp; cases hp
      | some q =>
        obtain ⟨D2, L2⟩ := q
        rw [h2] at hp
        simp only [Option.map_some, Option.some.injEq, Prod.mk.injEq] at hp
        obtain ⟨rfl, rfl⟩ := hp
        have hk1 := hk k (by simp)
        have key := decodeField_piece hk1.1 hk1.2 h1 P (D2 ++ L2.reverse.flatMap lenBytes) S
          (by simpa [List.reverse_append, List.flatMap_append, Nat.add_assoc] using hb)
        have e1 : P ++ (D1 ++ D2 ++ (L1 ++ L2).reverse.flatMap lenBytes) ++ S =
            P ++ (D1 ++ (D2 ++ L2.reverse.flatMap lenBytes) ++ L1.reverse.flatMap lenBytes) ++ S := by
          simp [List.reverse_append, List.flatMap_append]
        have e2 : (D1 ++ D2 ++ (L1 ++ L2).reverse.flatMap lenBytes).length =
            (D1 ++ (D2 ++ L2.reverse.flatMap lenBytes) ++ L1.reverse.flatMap lenBytes).length := by
          simp [List.reverse_append, List.flatMap_append, Nat.add_assoc]
        obtain ⟨o, ho⟩ := ih (fun k hk' => hk k (by simp [hk'])) h2 (P ++ D1)
          (L1.reverse.flatMap lenBytes ++ S)
          (by simpa [List.reverse_append, List.flatMap_append, Nat.add_assoc] using hb)
        refine ⟨o, ?_⟩
        simp only [decodeFields]
        rw [e1, e2, key]
        simp only [Res.bind_ok]
        have e3 : P ++ (D1 ++ (D2 ++ L2.reverse.flatMap lenBytes) ++ L1.reverse.flatMap lenBytes) ++ S =
            P ++ D1 ++ (D2 ++ L2.reverse.flatMap lenBytes) ++ (L1.reverse.flatMap lenBytes ++ S) := by
          simp
        have e4 : P.length + (D1 ++ (D2 ++ L2.reverse.flatMap lenBytes)).length =
            (P ++ D1).length + (D2 ++ L2.reverse.flatMap lenBytes).length := by
          simp [Nat.add_assoc]
        have e5 : P.length + D1.length = (P ++ D1).length := by simp
        rw [e3, e4, e5, ho]
        rfl

theorem decodeComposite_encodeComposite {m : NullMode} {ks : List KeyTy}
    (hk : ∀ k ∈ ks, RoundTrips k ∧ HonestLen k) {v : Tuple ks} {b : Bytes}
    (h : encodeComposite m ks v = some b) (hb : b.length < 2 ^ 64) :
    decodeComposite m ks b = .ok v := by
  rw [encodeComposite_eq] at h
  cases hp : pieces m ks v with
  | none => rw [hp] at h; cases h
  | some p =>
    obtain ⟨D, L⟩ := p
    rw [hp] at h
    simp only [Option.map_some, Option.some.injEq] at h
    subst h
    obtain ⟨o, ho⟩ := decodeFields_pieces hk hp [] [] (by simpa using hb)
    simp only [List.nil_append, List.append_nil, List.length_nil, Nat.zero_add] at ho
    rw [decodeComposite, ho]
    simp

/-! ### When encoding fails -/

theorem piece_none_iff {m : NullMode} {k : KeyTy} {v : k.T} :
    piece m k v = none ↔ k.enc v = none ∨ ∃ b, k.enc v = some b ∧ k.len = none ∧
      ((m = .deny ∧ (0 : UInt8) ∈ b) ∨ 65535 < storedLength m b) := by
  unfold piece
  cases he : k.enc v with
  | none => simp
  | some b =>
    cases hl : k.len with
    | some n => simp
    | none =>
      dsimp only
      cases hn : handleNulls m b with
      | none =>
        have : m = .deny ∧ (0 : UInt8) ∈ b := by
          cases m <;> simp [handleNulls] at hn; exact ⟨rfl, hn⟩
        simp [this]
      | some b' =>
        have h1 := (handleNulls_length hn).2
        have h2 : ¬ (m = .deny ∧ (0 : UInt8) ∈ b) := by
          rintro ⟨rfl, h⟩; simp [handleNulls, h] at hn
        simp [h2, h1]

theorem pieces_none_iff {m : NullMode} {ks : List KeyTy} {v : Tuple ks} :
    pieces m ks v = none ↔ ∃ f ∈ fieldsOf ks v, piece m f.1 f.2 = none := by
  induction ks with
  | nil => simp [pieces, fieldsOf]
  | cons k ks ih =>
    obtain ⟨v, vs⟩ := v
    simp only [pieces, fieldsOf, List.mem_cons, exists_eq_or_imp, ← ih]
    cases piece m k v with
    | none => simp
    | some p => simp

/-! ### Order -/

theorem pos_of_ne_zero8 {y : UInt8} (h : y ≠ 0) : (0 : UInt8) < y := by
  rw [UInt8.lt_iff_toNat_lt]
  have : y.toNat ≠ 0 := fun h' => h (UInt8.toNat_inj.mp (by simpa using h'))
  simp; omega

theorem plain_lt {a b : Bytes} (h : a < b) (hn : ¬ (a ++ [0]) <+: b) (X Y : Bytes) :
    a ++ [0] ++ X < b ++ [0] ++ Y := by
  induction a generalizing b with
  | nil =>
    cases b with
    | nil => simp at h
    | cons y ys =>
      have hy : y ≠ 0 := by rintro rfl; exact hn (by simp)
      exact List.cons_lt_cons_iff.mpr (.inl (pos_of_ne_zero8 hy))
  | cons x xs ih =>
    cases b with
    | nil => simp at h
    | cons y ys =>
      rcases List.cons_lt_cons_iff.mp h with h | ⟨rfl, h2⟩
      · exact List.cons_lt_cons_iff.mpr (.inl h)
      · exact List.cons_lt_cons_iff.mpr (  .inr ⟨rfl, ih h2 (fun hp => hn (by simpa using hp))⟩)

theorem escape_lt {a b : Bytes} (h : a < b) (hn : ¬ (a ++ [0]) <+: b) (X Y : Bytes) :
    escapeNulls a ++ [0] ++ X < escapeNulls b ++ [0] ++ Y := by
  induction a generalizing b with
  | nil =>
    cases b with
    | nil => simp at h
    | cons y ys =>
      have hy : y ≠ 0 := by rintro rfl; exact hn (by simp)
      simp only [escapeNulls, hy, if_false]
      exact List.cons_lt_cons_iff.mpr (.inl (pos_of_ne_zero8 hy))
  | cons x xs ih =>
    cases b with
    | nil => simp at h
    | cons y ys =>
      rcases List.cons_lt_cons_iff.mp h with h | ⟨rfl, h2⟩
      · have hy : y ≠ 0 := by rintro rfl; simp at h
        by_cases hx : x = 0
        · subst hx
          simp only [escapeNulls, hy, if_false, if_true]
          exact List.cons_lt_cons_iff.mpr (.inl h)
        · simp only [escapeNulls, hy, hx, if_false]
          exact List.cons_lt_cons_iff.mpr (.inl h)
      · have := ih h2 (fun hp => hn (by simpa using hp))
        by_cases hx : x = 0
        · subst hx
          simp only [escapeNulls, if_true]
          exact List.cons_lt_cons_iff.mpr (.inr ⟨rfl, List.cons_lt_cons_iff.mpr (.inr ⟨rfl, this⟩)⟩)
        · simp only [escapeNulls, hx, if_false]
          exact List.cons_lt_cons_iff.mpr (.inr ⟨rfl, this⟩)

theorem nullSeparated_of_no_null {a b : Bytes} (ha : (0 : UInt8) ∉ a) (hb : (0 : UInt8) ∉ b) :
    NullSeparated a b :=
  ⟨fun h => hb (h.subset (by simp)), fun h => ha (h.subset (by simp))⟩

/-- A strictly smaller field decides the order of the whole, whatever follows. -/
theorem piece_lt {m : NullMode} {k : KeyTy} (ho : SortsCorrectly k)
    (hpf : k.len ≠ none → PrefixFree k) (hir : ∀ v, ¬ k.lt v v)
    {v w : k.T} (hlt : k.lt v w)
    (hsep : m = .deny ∨ (k.len = none → ∀ a b, k.enc v = some a → k.enc w = some b →
      NullSeparated a b))
    {p q : Bytes × List Nat} (hp : piece m k v = some p) (hq : piece m k w = some q)
    (X Y : Bytes) : p.1 ++ X < q.1 ++ Y := by
  unfold piece at hp hq
  cases he : k.enc v with
  | none => rw [he] at hp; cases hp
  | some a =>
  cases he' : k.enc w with
  | none => rw [he'] at hq; cases hq
  | some b =>
  rw [he] at hp; rw [he'] at hq
  have hab : a < b := (ho v w a b he he').mpr hlt
  cases hl : k.len with
  | some n =>
    rw [hl] at hp hq
    simp only [Option.some.injEq] at hp hq
    subst hp hq
    refine append_lt_append_of_lt hab ?_ X Y
    intro hpre
    have := hpf (by simp [hl]) v w a b he he' hpre
    subst this
    exact hir _ hlt
  | none =>
    rw [hl] at hp hq
    dsimp only at hp hq
    cases hn : handleNulls m a with
    | none => rw [hn] at hp; cases hp
    | some a' =>
    cases hn' : handleNulls m b with
    | none => rw [hn'] at hq; cases hq
    | some b' =>
    rw [hn] at hp; rw [hn'] at hq
    dsimp only at hp hq
    split at hp
    case isFalse => cases hp
    split at hq
    case isFalse => cases hq
    simp only [Option.some.injEq] at hp hq
    subst hp hq
    have hs : NullSeparated a b := by
      rcases hsep with rfl | hsep
      · simp only [handleNulls] at hn hn'
        split at hn
        · cases hn
        split at hn'
        · cases hn'
        exact nullSeparated_of_no_null (by assumption) (by assumption)
      · exact hsep hl a b he he'
    dsimp only
    cases m with
    | escape =>
      simp only [handleNulls, Option.some.injEq] at hn hn'
      subst hn hn'
      exact escape_lt hab hs.1 X Y
    | allow =>
      simp only [handleNulls, Option.some.injEq] at hn hn'
      subst hn hn'
      exact plain_lt hab hs.1 X Y
    | deny =>
      simp only [handleNulls] at hn hn'
      split at hn
      · cases hn
      split at hn'
      · cases hn'
      simp only [Option.some.injEq] at hn hn'
      subst hn hn'
      exact plain_lt hab hs.1 X Y

theorem pieces_lt {m : NullMode} {ks : List KeyTy}
    (hk : ∀ k ∈ ks, SortsCorrectly k ∧ (k.len ≠ none → PrefixFree k) ∧ TotallyOrdered k)
    {v w : Tuple ks} (hlt : tupleLt ks v w) (hsep : m = .deny ∨ TupleNullSeparated ks v w)
    {p q : Bytes × List Nat} (hp : pieces m ks v = some p) (hq : pieces m ks w = some q)
    (X Y : Bytes) : p.1 ++ X < q.1 ++ Y := by
  induction ks generalizing p q with
  | nil => cases hlt
  | cons k ks ih =>
    obtain ⟨v, vs⟩ := v
    obtain ⟨w, ws⟩ := w
    simp only [pieces] at hp hq
    cases h1 : piece m k v with
    | none => rw [h1] at hp; cases hp
    | some p1 =>
    cases h2 : piece m k w with
    | none => rw [h2] at hq; cases hq
    | some q1 =>
    rw [h1] at hp; rw [h2] at hq
    simp only [Option.bind_some] at hp hq
    cases h3 : pieces m ks vs with
    | none => rw [h3] at hp; cases hp
    | some p2 =>
    cases h4 : pieces m ks ws with
    | none => rw [h4] at hq; cases hq
    | some q2 =>
    rw [h3] at hp; rw [h4] at hq
    simp only [Option.map_some, Option.some.injEq] at hp hq
    subst hp hq
    obtain ⟨hs1, hs2, hs3⟩ := hk k (by simp)
    simp only [List.append_assoc]
    rcases hlt with hlt | ⟨rfl, hlt⟩
    · exact piece_lt hs1 hs2 hs3.2.1 hlt (hsep.imp id (fun h => h.1)) h1 h2 _ _
    · rw [h1] at h2
      simp only [Option.some.injEq] at h2
      subst h2
      rw [append_lt_append_left_iff]
      exact ih (fun k' h' => hk k' (by simp [h'])) hlt (hsep.imp id (fun h => h.2)) h3 h4

theorem tupleLt_total {ks : List KeyTy} (hk : ∀ k ∈ ks, TotallyOrdered k) (v w : Tuple ks) :
    tupleLt ks v w ∨ v = w ∨ tupleLt ks w v := by
  induction ks with
  | nil => exact .inr (.inl rfl)
  | cons k ks ih =>
    obtain ⟨v, vs⟩ := v
    obtain ⟨w, ws⟩ := w
    simp only [tupleLt]
    rcases (hk k (by simp)).1 v w with h | rfl | h
    · exact .inl (.inl h)
    · rcases ih (fun k' h' => hk k' (by simp [h'])) vs ws with h | rfl | h
      · exact .inl (.inr ⟨rfl, h⟩)
      · exact .inr (.inl rfl)
      · exact .inr (.inr (.inr ⟨rfl, h⟩))
    · exact .inr (.inr (.inl h))

theorem tupleLt_irrefl {ks : List KeyTy} (hk : ∀ k ∈ ks, TotallyOrdered k) (v : Tuple ks) :
    ¬ tupleLt ks v v := by
  induction ks with
  | nil => exact id
  | cons k ks ih =>
    obtain ⟨v, vs⟩ := v
    rintro (h | ⟨_, h⟩)
    · exact (hk k (by simp)).2.1 v h
    · exact ih (fun k' h' => hk k' (by simp [h'])) vs h

theorem tupleLt_asymm {ks : List KeyTy} (hk : ∀ k ∈ ks, TotallyOrdered k) (v w : Tuple ks)
    (h : tupleLt ks v w) : ¬ tupleLt ks w v := by
  induction ks with
  | nil => exact id
  | cons k ks ih =>
    obtain ⟨v, vs⟩ := v
    obtain ⟨w, ws⟩ := w
    have h3 := hk k (by simp)
    rcases h with h | ⟨rfl, h⟩
    · rintro (h' | ⟨rfl, _⟩)
      · exact h3.2.2 _ _ h h'
      · exact h3.2.1 _ h
    · rintro (h' | ⟨_, h'⟩)
      · exact h3.2.1 _ h'
      · exact ih (fun k' h' => hk k' (by simp [h'])) vs ws h h'

theorem tupleNullSeparated_symm {ks : List KeyTy} {v w : Tuple ks}
    (h : TupleNullSeparated ks v w) : TupleNullSeparated ks w v := by
  induction ks with
  | nil => trivial
  | cons k ks ih =>
    obtain ⟨v, vs⟩ := v
    obtain ⟨w, ws⟩ := w
    exact ⟨fun hl a b ha hb => (h.1 hl b a hb ha).symm, ih h.2⟩

theorem encodeComposite_lt_iff {m : NullMode} {ks : List KeyTy}
    (hk : ∀ k ∈ ks, SortsCorrectly k ∧ (k.len ≠ none → PrefixFree k) ∧ TotallyOrdered k)
    {v w : Tuple ks} {a b : Bytes} (ha : encodeComposite m ks v = some a)
    (hb : encodeComposite m ks w = some b) (hsep : m = .deny ∨ TupleNullSeparated ks v w) :
    a < b ↔ tupleLt ks v w := by
  have hto : ∀ k ∈ ks, TotallyOrdered k := fun k h => (hk k h).2.2
  rw [encodeComposite_eq] at ha hb
  cases hp : pieces m ks v with
  | none => rw [hp] at ha; cases ha
  | some p =>
  cases hq : pieces m ks w with
  | none => rw [hq] at hb; cases hb
  | some q =>
  rw [hp] at ha; rw [hq] at hb
  simp only [Option.map_some, Option.some.injEq] at ha hb
  have key : ∀ {v w : Tuple ks} {p q : Bytes × List Nat}, pieces m ks v = some p →
      pieces m ks w = some q → (m = .deny ∨ TupleNullSeparated ks v w) → tupleLt ks v w →
      p.1 ++ p.2.reverse.flatMap lenBytes < q.1 ++ q.2.reverse.flatMap lenBytes :=
    fun hp hq hsep hlt => pieces_lt hk hlt hsep hp hq _ _
  constructor
  · intro hab
    rcases tupleLt_total hto v w with h | rfl | h
    · exact h
    · rw [hp] at hq; cases hq; subst ha; subst hb; exact absurd hab (bytes_lt_irrefl _)
    · have := key hq hp (hsep.imp id tupleNullSeparated_symm) h
      rw [ha, hb] at this
      exact absurd hab (bytes_lt_asymm this)
  · intro h
    have := key hp hq hsep h
    rwa [ha, hb] at this

end Bonsai
