import Verif.Key.Prims

/-!
# C14: the text form of a document id

`crates/bonsaidb-core/src/document/id.rs`.  A `DocumentId` is a byte string of at most 65535 bytes;
texts are modelled by their UTF-8 bytes (`Display` only produces ASCII).
-/
set_option linter.unusedSimpArgs false

namespace Bonsai.DocId
open Bonsai

/-- `DocumentId::MAX_LENGTH`, id.rs:231. -/
def MAX_LENGTH : Nat := 65535

/-- Rust's lower-case `{:x}` digit (std). -/
def hexDigit (n : Nat) : UInt8 := if n < 10 then UInt8.ofNat (48 + n) else UInt8.ofNat (87 + n)

/-- Rust's `{:x}` of a `usize` (std): no leading zero, at most 16 digits. -/
def hexAux : Nat → Nat → Bytes
  | 0, _ => []
  | f + 1, n => if n < 16 then [hexDigit n] else hexAux f (n / 16) ++ [hexDigit (n % 16)]
def hexUsize (n : Nat) : Bytes := hexAux 16 n

/-- Rust's `{byte:02x}` (std). -/
def hex2 (b : UInt8) : Bytes := [hexDigit (b.toNat / 16), hexDigit (b.toNat % 16)]

/-- The printable test of `Display`, id.rs:37-38 (a byte string in `32..=127` is valid UTF-8). -/
def printable (id : Bytes) : Bool := id.all fun b => 32 ≤ b.toNat && b.toNat ≤ 127

/-- The loop of id.rs:55-61: the first byte unpadded, the others two digits. -/
def hexBytes : Bytes → Bytes
  | [] => []
  | b :: r => hexUsize b.toNat ++ r.flatMap hex2

/-- `Display for DocumentId`, id.rs:35-66. -/
def display (id : Bytes) : Bytes :=
  if printable id then id
  else
    match id.findIdx? (fun b => b != 0) with
    | some z => (if z > 0 then hexUsize z ++ [36] else [36]) ++ hexBytes (id.drop z)
    | none => hexUsize id.length ++ [36]

/-- `decode_hex_nibble`, id.rs:97-104. -/
def nibble (b : UInt8) : Option UInt8 :=
  if 48 ≤ b.toNat ∧ b.toNat ≤ 57 then some (UInt8.ofNat (b.toNat - 48))
  else if 65 ≤ b.toNat ∧ b.toNat ≤ 70 then some (UInt8.ofNat (b.toNat - 65 + 10))
  else if 97 ≤ b.toNat ∧ b.toNat ≤ 102 then some (UInt8.ofNat (b.toNat - 97 + 10))
  else none

/-- The chunk loop of `decode_big_endian_hex`, id.rs:162-169. -/
def decodePairs : Bytes → Option Bytes
  | [] => some []
  | [_] => none
  | a :: b :: r =>
    (nibble a).bind fun u => (nibble b).bind fun l =>
      (decodePairs r).map fun t => UInt8.ofNat (u.toNat * 16 + l.toNat) :: t

/-- `decode_big_endian_hex`, id.rs:154-174. -/
def decodeHex (s : Bytes) : Option Bytes :=
  if s.length % 2 = 0 then decodePairs s
  else match s with
    | [] => some []
    | a :: r => (nibble a).bind fun u => (decodePairs r).map fun t => u :: t

/-- `FromStr for DocumentId`, id.rs:106-148. The distinction between the two error kinds
(too long / invalid hexadecimal) is dropped. -/
def parse (s : Bytes) : Option Bytes :=
  if s = [] then some []
  else
    match s.findIdx? (fun b => b == 36) with
    | some p =>
      if p > 5 then none
      else
        (if p > 0 then (decodeHex (s.take p)).map fromBE else some 0).bind fun zeroes =>
          (decodeHex (s.drop (p + 1))).bind fun id =>
            if zeroes > 0 then
              if zeroes + id.length > MAX_LENGTH then none
              else some (List.replicate zeroes 0 ++ id)
            else some id
    | none => if s.length > MAX_LENGTH then none else some s

/-! ## Specification -/

/-- A document id is legal when it is not longer than the documented maximum. -/
@[reducible] def Legal (id : Bytes) : Prop := id.length ≤ 65535

/-- The ids on which the text form is ambiguous: printable text containing a `$`. -/
def Ambiguous (id : Bytes) : Prop :=
  (∀ b ∈ id, 32 ≤ b.toNat ∧ b.toNat ≤ 127) ∧ (36 : UInt8) ∈ id

/-! ## Lemmas -/

theorem hexDigit_nibble {n : Nat} (h : n < 16) : nibble (hexDigit n) = some (UInt8.ofNat n) := by
  have : ∀ i : Fin 16, nibble (hexDigit i.val) = some (UInt8.ofNat i.val) := by decide
  exact this ⟨n, h⟩

theorem hexDigit_ne {n : Nat} (h : n < 16) : hexDigit n ≠ 36 := by
  have : ∀ i : Fin 16, hexDigit i.val ≠ 36 := by decide
  exact this ⟨n, h⟩

theorem toNat_ofNat16 {n : Nat} (h : n < 16) : (UInt8.ofNat n).toNat = n :=
  toNat_ofNat8 (by omega)

theorem join_nibbles (b : UInt8) :
    UInt8.ofNat ((UInt8.ofNat (b.toNat / 16)).toNat * 16 + (UInt8.ofNat (b.toNat % 16)).toNat) = b := by
  have hb : b.toNat < 256 := b.toNat_lt
  rw [toNat_ofNat16 (by omega), toNat_ofNat16 (by omega)]
  have : b.toNat / 16 * 16 + b.toNat % 16 = b.toNat := by omega
  rw [this]; simp

theorem decodePairs_hex2 (r : Bytes) : decodePairs (r.flatMap hex2) = some r := by
  induction r with
  | nil => rfl
  | cons b r ih =>
    have hb : b.toNat < 256 := b.toNat_lt
    simp only [List.flatMap_cons, hex2, List.cons_append, List.nil_append, decodePairs]
    rw [hexDigit_nibble (by omega), hexDigit_nibble (by omega), ih]
    simp only [Option.bind_some, Option.map_some]
    rw [join_nibbles]

theorem flatMap_hex2_length (r : Bytes) : (r.flatMap hex2).length = 2 * r.length := by
  induction r with
  | nil => rfl
  | cons b r ih => simp only [List.flatMap_cons, List.length_append, ih, hex2, List.length_cons,
      List.length_nil]; omega

theorem hexUsize_lt16 {n : Nat} (h : n < 16) : hexUsize n = [hexDigit n] := by
  simp [hexUsize, hexAux, h]

theorem hexUsize_lt256 {n : Nat} (h : 16 ≤ n) (h' : n < 256) :
    hexUsize n = [hexDigit (n / 16), hexDigit (n % 16)] := by
  have h1 : ¬ n < 16 := by omega
  have h2 : n / 16 < 16 := by omega
  simp [hexUsize, hexAux, h1, h2]

theorem hexUsize_lt4096 {n : Nat} (h : 256 ≤ n) (h' : n < 4096) :
    hexUsize n = [hexDigit (n / 256), hexDigit (n / 16 % 16), hexDigit (n % 16)] := by
  have h1 : ¬ n < 16 := by omega
  have h2 : ¬ n / 16 < 16 := by omega
  have h3 : n / 16 / 16 < 16 := by omega
  have h4 : n / 16 / 16 = n / 256 := by omega
  simp [hexUsize, hexAux, h1, h2, h4] at *
  simp [h3]

theorem hexUsize_lt65536 {n : Nat} (h : 4096 ≤ n) (h' : n < 65536) :
    hexUsize n = [hexDigit (n / 4096), hexDigit (n / 256 % 16), hexDigit (n / 16 % 16),
      hexDigit (n % 16)] := by
  have h1 : ¬ n < 16 := by omega
  have h2 : ¬ n / 16 < 16 := by omega
  have h4 : n / 16 / 16 = n / 256 := by omega
  have h3 : ¬ n / 256 < 16 := by omega
  have h5 : n / 256 / 16 = n / 4096 := by omega
  have h6 : n / 4096 < 16 := by omega
  simp [hexUsize, hexAux, h1, h2, h3, h4, h5, h6]

theorem decodeHex_hexBytes (b : UInt8) (r : Bytes) : decodeHex (hexBytes (b :: r)) = some (b :: r) := by
  have hb : b.toNat < 256 := b.toNat_lt
  show decodeHex (hexUsize b.toNat ++ r.flatMap hex2) = _
  unfold decodeHex
  rcases Nat.lt_or_ge b.toNat 16 with h | h
  · rw [hexUsize_lt16 h]
    have hl : ([hexDigit b.toNat] ++ r.flatMap hex2).length % 2 ≠ 0 := by
      simp only [List.length_append, flatMap_hex2_length, List.length_cons, List.length_nil]; omega
    rw [if_neg hl]
    simp only [List.cons_append, List.nil_append]
    rw [hexDigit_nibble h, decodePairs_hex2]
    simp
  · rw [hexUsize_lt256 h hb]
    have hl : ([hexDigit (b.toNat / 16), hexDigit (b.toNat % 16)] ++ r.flatMap hex2).length % 2 = 0 := by
      simp only [List.length_append, flatMap_hex2_length, List.length_cons, List.length_nil]; omega
    rw [if_pos hl]
    exact decodePairs_hex2 (b :: r)

theorem hexUsize_decode {n : Nat} (h : n ≤ 65535) :
    (decodeHex (hexUsize n)).map fromBE = some n := by
  rcases Nat.lt_or_ge n 16 with h1 | h1
  · rw [hexUsize_lt16 h1]
    simp [decodeHex, hexDigit_nibble h1, decodePairs, fromBE]
    omega
  rcases Nat.lt_or_ge n 256 with h2 | h2
  · rw [hexUsize_lt256 h1 h2]
    have a := hexDigit_nibble (show n / 16 < 16 by omega)
    have b := hexDigit_nibble (show n % 16 < 16 by omega)
    simp [decodeHex, a, b, decodePairs, fromBE]
    omega
  rcases Nat.lt_or_ge n 4096 with h3 | h3
  · rw [hexUsize_lt4096 h2 h3]
    have a := hexDigit_nibble (show n / 256 < 16 by omega)
    have b := hexDigit_nibble (show n / 16 % 16 < 16 by omega)
    have c := hexDigit_nibble (show n % 16 < 16 by omega)
    simp [decodeHex, a, b, c, decodePairs, fromBE]
    omega
  · rw [hexUsize_lt65536 h3 (by omega)]
    have a := hexDigit_nibble (show n / 4096 < 16 by omega)
    have d := hexDigit_nibble (show n / 256 % 16 < 16 by omega)
    have b := hexDigit_nibble (show n / 16 % 16 < 16 by omega)
    have c := hexDigit_nibble (show n % 16 < 16 by omega)
    simp [decodeHex, a, b, c, d, decodePairs, fromBE]
    omega

theorem hexUsize_shape {n : Nat} (h : n ≤ 65535) :
    0 < (hexUsize n).length ∧ (hexUsize n).length ≤ 4 ∧ (36 : UInt8) ∉ hexUsize n := by
  have hd : ∀ m : Nat, m < 16 → (36 : UInt8) ≠ hexDigit m := fun m hm e => hexDigit_ne hm e.symm
  rcases Nat.lt_or_ge n 16 with h1 | h1
  · rw [hexUsize_lt16 h1]; simp [hd n h1]
  rcases Nat.lt_or_ge n 256 with h2 | h2
  · rw [hexUsize_lt256 h1 h2]
    have a := hd (n / 16) (by omega)
    have b := hd (n % 16) (by omega)
    simp [a, b]
  rcases Nat.lt_or_ge n 4096 with h3 | h3
  · rw [hexUsize_lt4096 h2 h3]
    have a := hd (n / 256) (by omega)
    have b := hd (n / 16 % 16) (by omega)
    have c := hd (n % 16) (by omega)
    simp [a, b, c]
  · rw [hexUsize_lt65536 h3 (by omega)]
    have a := hd (n / 4096) (by omega)
    have d := hd (n / 256 % 16) (by omega)
    have b := hd (n / 16 % 16) (by omega)
    have c := hd (n % 16) (by omega)
    simp [a, b, c, d]

theorem findDollar (p q : Bytes) (h : (36 : UInt8) ∉ p) :
    (p ++ 36 :: q).findIdx? (fun b => b == 36) = some p.length := by
  induction p with
  | nil => simp [List.findIdx?_cons]
  | cons a p ih =>
    simp only [List.mem_cons, not_or] at h
    have ha : (a == 36) = false := beq_eq_false_iff_ne.mpr (fun e => h.1 e.symm)
    simp only [List.cons_append, List.findIdx?_cons, ha, ih h.2]
    simp

/-- Parsing a text with an explicit number of zeroes. -/
theorem parse_dollar (p q : Bytes) (hp : (36 : UInt8) ∉ p) (hl : p.length ≤ 5) :
    parse (p ++ 36 :: q) =
      (if p.length > 0 then (decodeHex p).map fromBE else some 0).bind fun zeroes =>
          (decodeHex q).bind fun id =>
            if zeroes > 0 then
              if zeroes + id.length > MAX_LENGTH then none
              else some (List.replicate zeroes 0 ++ id)
            else some id := by
  unfold parse
  rw [if_neg (by simp), findDollar p q hp]
  simp only
  rw [if_neg (by omega)]
  have h1 : (p ++ 36 :: q).take p.length = p := by simp
  have h2 : (p ++ 36 :: q).drop (p.length + 1) = q := by
    rw [← List.drop_drop]; simp
  rw [h1, h2]

theorem leadingZeroes {id : Bytes} {z : Nat} (h : id.findIdx? (fun b => b != 0) = some z) :
    z < id.length ∧ id = List.replicate z 0 ++ id.drop z ∧ ∃ b r, id.drop z = b :: r := by
  rw [List.findIdx?_eq_some_iff_getElem] at h
  obtain ⟨hz, h1, h2⟩ := h
  refine ⟨hz, ?_, ?_⟩
  · conv => lhs; rw [← List.take_append_drop z id]
    congr 1
    apply List.ext_getElem
    · simp; omega
    · intro i hi hi'
      have hiz : i < z := by simpa using hi'
      have := h2 i hiz
      simpa using this
  · exact ⟨_, _, List.drop_eq_getElem_cons hz⟩

theorem allZeroes {id : Bytes} (h : id.findIdx? (fun b => b != 0) = none) :
    id = List.replicate id.length 0 := by
  rw [List.findIdx?_eq_none_iff] at h
  rw [List.eq_replicate_iff]
  exact ⟨rfl, fun b hb => by simpa using h b hb⟩

/-! ## C14 -/

/-- **C14 (partial).** Every legal document id that is not printable text containing a `$` is
parsed back from its displayed text.  The missing part is refuted below: for printable ids that
contain `$` the text is ambiguous. -/
theorem C14_text_round_trip_partial (id : Bytes) (hl : Legal id) (ha : ¬ Ambiguous id) :
    parse (display id) = some id := by
  unfold Legal at hl
  unfold display
  by_cases hp : printable id
  · rw [if_pos hp]
    have hnd : (36 : UInt8) ∉ id := by
      intro hm
      apply ha
      refine ⟨?_, hm⟩
      intro b hb
      have := List.all_eq_true.mp hp b hb
      simpa using this
    unfold parse
    by_cases he : id = []
    · simp [he]
    · rw [if_neg he]
      have : id.findIdx? (fun b => b == 36) = none := by
        rw [List.findIdx?_eq_none_iff]
        intro b hb
        simp only [beq_eq_false_iff_ne, ne_eq]
        rintro rfl
        exact hnd hb
      rw [this]
      simp only
      rw [if_neg (by unfold MAX_LENGTH; omega)]
  · rw [if_neg hp]
    cases hz : id.findIdx? (fun b => b != 0) with
    | some z =>
      simp only
      obtain ⟨hzl, he, b, r, hbr⟩ := leadingZeroes hz
      rw [hbr]
      by_cases hz0 : z > 0
      · rw [if_pos hz0, List.append_assoc, List.singleton_append]
        obtain ⟨s1, s2, s3⟩ := hexUsize_shape (n := z) (by omega)
        rw [parse_dollar _ _ s3 (by omega), if_pos s1, hexUsize_decode (by omega),
          decodeHex_hexBytes]
        simp only [Option.bind_some]
        rw [if_pos hz0]
        have hlen : z + (b :: r).length = id.length := by
          rw [← hbr]; simp; omega
        rw [if_neg (by rw [hlen]; unfold MAX_LENGTH; omega), ← hbr, ← he]
      · rw [if_neg hz0]
        have hz1 : z = 0 := by omega
        have := parse_dollar [] (hexBytes (b :: r)) (by simp) (by simp)
        simp only [List.nil_append, List.length_nil, gt_iff_lt, Nat.lt_irrefl, if_false,
          Option.bind_some, decodeHex_hexBytes] at this
        simp only [List.singleton_append]
        rw [this, ← hbr, hz1]; rfl
    | none =>
      simp only
      have he := allZeroes hz
      have hpos : 0 < id.length := by
        rcases Nat.eq_zero_or_pos id.length with h0 | h0
        · have : id = [] := List.length_eq_zero_iff.mp h0
          subst this
          simp [printable] at hp
        · exact h0
      obtain ⟨s1, s2, s3⟩ := hexUsize_shape (n := id.length) (by omega)
      rw [parse_dollar _ _ s3 (by omega), if_pos s1, hexUsize_decode (by omega)]
      have hd : decodeHex [] = some [] := rfl
      simp only [hd, Option.bind_some]
      rw [if_pos hpos, if_neg (by simp [MAX_LENGTH]; omega), List.append_nil, ← he]

/-- Distinct ids outside the ambiguous class have distinct texts. -/
theorem C14_text_injective_partial (a b : Bytes) (hla : Legal a) (hlb : Legal b)
    (ha : ¬ Ambiguous a) (hb : ¬ Ambiguous b) (h : display a = display b) : a = b := by
  have h1 := C14_text_round_trip_partial a hla ha
  have h2 := C14_text_round_trip_partial b hlb hb
  rw [h, h2] at h1
  exact (Option.some.inj h1).symm

/-- Every integer key id (`u8`…`u128` big-endian) is legal, and the only ambiguous ones are
those whose bytes all happen to be printable. In particular every `u64` id below 2^61 round-trips. -/
theorem C14_u64_ids_round_trip (n : Nat) (h : n < 2 ^ 61) :
    parse (display (toBE 8 n)) = some (toBE 8 n) := by
  apply C14_text_round_trip_partial
  · simp [Legal, toBE_length]
  · rintro ⟨h1, -⟩
    have hm : UInt8.ofNat (n / 256 ^ 7) ∈ toBE 8 n := by simp [toBE]
    have h32 := (h1 _ hm).1
    have h7 : (256 : Nat) ^ 7 = 72057594037927936 := by decide
    have hlt : n / 256 ^ 7 < 32 := by rw [h7]; omega
    rw [toNat_ofNat8 (Nat.lt_trans hlt (by decide))] at h32
    omega

/-- **C14 violated (F11).** The id `$` (one byte, printable) is displayed as `$`, which parses as
the empty id. -/
theorem C14_violated_dollar : ∃ id, Legal id ∧ parse (display id) = some [] ∧ id ≠ [] :=
  ⟨[36], by decide, by decide, by decide⟩

/-- **C14 violated (F11).** Two distinct legal ids have the same text `a$b`. -/
theorem C14_violated_collision :
    ∃ a b : Bytes, Legal a ∧ Legal b ∧ a ≠ b ∧ display a = display b :=
  ⟨[97, 36, 98], [0, 0, 0, 0, 0, 0, 0, 0, 0, 0, 11], by decide, by decide, by decide, by decide⟩

/-- **C14 violated.** A printable id containing `$` may not parse at all (`a$z`). -/
theorem C14_violated_unparsable : ∃ id, Legal id ∧ parse (display id) = none :=
  ⟨[97, 36, 122], by decide, by decide⟩

theorem decodePairs_replicate (n : Nat) :
    decodePairs (List.replicate (2 * n) 48) = some (List.replicate n 0) := by
  induction n with
  | zero => rfl
  | succ n ih =>
    rw [show 2 * (n + 1) = 2 * n + 1 + 1 by omega, List.replicate_succ, List.replicate_succ,
      List.replicate_succ]
    simp only [decodePairs, ih, show nibble 48 = some 0 by decide]
    rfl

theorem parse_zeroes (m : Nat) : parse (36 :: List.replicate (2 * m) 48) = some (List.replicate m 0) := by
  have := parse_dollar [] (List.replicate (2 * m) 48) (by simp) (by simp)
  simp only [List.nil_append, List.length_nil, gt_iff_lt, Nat.lt_irrefl, if_false,
    Option.bind_some] at this
  rw [this]
  unfold decodeHex
  rw [if_pos (by simp), decodePairs_replicate]
  simp

/-- **Parsed ids may exceed the maximum (F40).** Text beginning with `$` skips the length check, so
parsing accepts an id of any length. -/
theorem C14_violated_length (n : Nat) : ∃ s id, parse s = some id ∧ id.length = n :=
  ⟨_, _, parse_zeroes n, List.length_replicate⟩

/-- Parsing never produces an over-long id from text without a `$` or with an explicit zero count. -/
theorem C14_length_checked_partial (s id : Bytes) (hs : s.head? ≠ some 36) (h : parse s = some id)
    (hz : ∀ p q, s = p ++ 36 :: q → ∀ d, decodeHex p = some d → 0 < fromBE d) : Legal id := by
  unfold Legal
  unfold parse at h
  split at h
  · cases h; simp
  · rename_i hne
    split at h
    · rename_i p hp
      split at h
      · cases h
      · obtain ⟨hpl, hpe, -⟩ := List.findIdx?_eq_some_iff_getElem.mp hp
        have hp0 : p > 0 := by
          rcases Nat.eq_zero_or_pos p with h0 | h0
          · subst h0
            exfalso
            apply hs
            cases s with
            | nil => simp at hne
            | cons a s => simpa using hpe
          · exact h0
        rw [if_pos hp0] at h
        have hsplit : s = s.take p ++ 36 :: s.drop (p + 1) := by
          conv => lhs; rw [← List.take_append_drop p s, List.drop_eq_getElem_cons hpl]
          have : s[p] = 36 := by simpa using hpe
          rw [this]
        cases hd : decodeHex (s.take p) with
        | none => simp [hd] at h
        | some d =>
          have hdz := hz _ _ hsplit d hd
          simp only [hd, Option.map_some, Option.bind_some] at h
          cases hq : decodeHex (s.drop (p + 1)) with
          | none => simp [hq] at h
          | some q =>
            simp only [hq, Option.bind_some] at h
            rw [if_pos hdz] at h
            split at h
            · cases h
            · cases h
              rename_i hle
              simp only [MAX_LENGTH] at hle
              simp; omega
    · split at h
      · cases h
      · cases h
        rename_i hle
        simp only [MAX_LENGTH] at hle
        omega

/-! Non-vacuity: a mixed id, an all-zero id and a printable id meet the hypotheses. -/
example : Legal [0, 10, 175, 250] ∧ ¬ Ambiguous [0, 10, 175, 250] ∧
    display [0, 10, 175, 250] = strBytes "1$aaffa" := by
  refine ⟨by decide, ?_, ?_⟩
  · rintro ⟨h, -⟩; exact absurd (h 0 (by simp)) (by decide)
  · have : strBytes "1$aaffa" = [49, 36, 97, 97, 102, 102, 97] := by decide
    rw [this]; decide
example : Legal [104, 105] ∧ ¬ Ambiguous [104, 105] ∧ display [104, 105] = [104, 105] := by
  refine ⟨by decide, ?_, by decide⟩
  rintro ⟨-, h⟩; exact absurd h (by decide)

end Bonsai.DocId
