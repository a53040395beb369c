import Verif.Key.Prims

/-!
# C15: escaped names

`crates/bonsaidb-core/src/schema/names.rs` and the storage-tree names built from them
(`crates/bonsaidb-local/src/database.rs:1745`, `crates/bonsaidb-local/src/views.rs:26-42`).
Encoded texts are modelled by their UTF-8 bytes.
-/
set_option linter.unusedSimpArgs false

namespace Bonsai.Names
open Bonsai

/-- `is_ascii_alphanumeric() || == '-'`, names.rs:66-68, 98. -/
def plainByte (b : UInt8) : Bool :=
  (48 ≤ b.toNat && b.toNat ≤ 57) || (65 ≤ b.toNat && b.toNat ≤ 90) ||
    (97 ≤ b.toNat && b.toNat ≤ 122) || b.toNat == 45

/-- `nibble_to_hex_char`, names.rs:114-120. -/
def nibbleToHex (n : Nat) : UInt8 := if n ≤ 9 then UInt8.ofNat (48 + n) else UInt8.ofNat (97 + n - 10)

/-- `hex_char_to_nibble`, names.rs:132-139: lower case only. -/
def hexToNibble (b : UInt8) : Option Nat :=
  if 48 ≤ b.toNat ∧ b.toNat ≤ 57 then some (b.toNat - 48)
  else if 97 ≤ b.toNat ∧ b.toNat ≤ 102 then some (b.toNat - 97 + 10)
  else none

/-- The loop of `Display for Name`, names.rs:97-106. -/
def escapeByte (b : UInt8) : Bytes :=
  if plainByte b then [b] else [95, nibbleToHex (b.toNat / 16), nibbleToHex (b.toNat % 16)]

/-- `Name::encoded` = `{:#}`, names.rs:59-61, 94-112, including the `needs_escaping` shortcut
(names.rs:64-73). -/
def encodeName (n : String) : Bytes :=
  if (strBytes n).all plainByte then strBytes n else (strBytes n).flatMap escapeByte

/-- `Name::to_string` (`{}`): the name itself, names.rs:108-110. -/
def displayName (n : String) : Bytes := strBytes n

/-- The decoding loop of `Name::parse_encoded`, names.rs:36-50. -/
def unescape : Bytes → Option Bytes
  | [] => some []
  | b :: r =>
    if b = 95 then
      match r with
      | h :: l :: r' =>
        (hexToNibble h).bind fun hi => (hexToNibble l).bind fun lo =>
          (unescape r').map fun t => UInt8.ofNat (hi * 16 + lo) :: t
      | _ => none
    else (unescape r).map fun t => b :: t

/-- `Name::parse_encoded`, names.rs:36-54. -/
def parseName (s : Bytes) : Option String :=
  (unescape s).bind fun b => String.fromUTF8? ⟨b.toArray⟩

/-- `str::split('.')` (std). -/
def splitDots : Bytes → List Bytes
  | [] => [[]]
  | b :: r =>
    if b = 46 then [] :: splitDots r
    else match splitDots r with
      | [] => [[b]]
      | p :: ps => (b :: p) :: ps

/-- A qualified (schema or collection) name: an authority and a name, names.rs:193-201. -/
structure QName where
  authority : String
  name : String
  deriving DecidableEq

/-- A view name, names.rs:351-357. -/
structure VName where
  collection : QName
  name : String
  deriving DecidableEq

/-- `Qualified::encoded`, names.rs:254-256 over Display 203-209. -/
def encodeQ (q : QName) : Bytes := encodeName q.authority ++ 46 :: encodeName q.name

/-- `QualifiedName::to_string`, names.rs:203-208 with the plain form. -/
def displayQ (q : QName) : Bytes := displayName q.authority ++ 46 :: displayName q.name

/-- `Qualified::parse_encoded`, names.rs:239-249. -/
def parseQ (s : Bytes) : Option QName :=
  match splitDots s with
  | [a, n] => (parseName a).bind fun a => (parseName n).map fun n => ⟨a, n⟩
  | _ => none

/-- `{:#}` of a `ViewName`, names.rs:373-379. -/
def encodeV (v : VName) : Bytes := encodeQ v.collection ++ 46 :: encodeName v.name

/-- `str::rsplit_once('.')` (std). -/
def rsplitOnce (s : Bytes) : Option (Bytes × Bytes) :=
  let r := s.reverse
  match r.findIdx? (fun b => b == 46) with
  | some i => some ((r.drop (i + 1)).reverse, (r.take i).reverse)
  | none => none

/-- `FromStr for ViewName`, names.rs:372-384. -/
def parseV (s : Bytes) : Option VName :=
  (rsplitOnce s).bind fun p =>
    (parseQ p.1).bind fun c => (parseName p.2).map fun n => ⟨c, n⟩

/-- The storage trees of one database.  `collection.{:#}` (bonsaidb-local database.rs:1745-1747),
`view.{:#}`, `view.{:#}.document-map`, `view.{:#}.invalidated`, `view-versions.{:#}`
(bonsaidb-local views.rs:26-41). -/
inductive Tree where
  | documents (c : QName)
  | viewEntries (v : VName)
  | viewDocMap (v : VName)
  | viewInvalidated (v : VName)
  | viewVersions (c : QName)
  deriving DecidableEq

def treeName : Tree → Bytes
  | .documents c => strBytes "collection." ++ encodeQ c
  | .viewEntries v => strBytes "view." ++ encodeV v
  | .viewDocMap v => strBytes "view." ++ encodeV v ++ strBytes ".document-map"
  | .viewInvalidated v => strBytes "view." ++ encodeV v ++ strBytes ".invalidated"
  | .viewVersions c => strBytes "view-versions." ++ encodeQ c

/-! ## Lemmas -/

theorem nibble_rt {n : Nat} (h : n < 16) : hexToNibble (nibbleToHex n) = some n := by
  have : ∀ i : Fin 16, hexToNibble (nibbleToHex i.val) = some i.val := by decide
  exact this ⟨n, h⟩

theorem nibble_plain {n : Nat} (h : n < 16) : plainByte (nibbleToHex n) = true := by
  have : ∀ i : Fin 16, plainByte (nibbleToHex i.val) = true := by decide
  exact this ⟨n, h⟩

theorem unescape_plain {b : UInt8} (h : b ≠ 95) (r : Bytes) :
    unescape (b :: r) = (unescape r).map fun t => b :: t := by
  rw [unescape.eq_def]; simp only; rw [if_neg h]

theorem unescape_escape_append (b : UInt8) (r : Bytes) :
    unescape (escapeByte b ++ r) = (unescape r).map fun t => b :: t := by
  unfold escapeByte
  by_cases hp : plainByte b
  · rw [if_pos hp]
    have : b ≠ 95 := by rintro rfl; exact absurd hp (by decide)
    exact unescape_plain this r
  · rw [if_neg hp]
    have hb : b.toNat < 256 := b.toNat_lt
    simp only [List.cons_append, List.nil_append]
    rw [unescape.eq_def]
    simp only [if_true]
    rw [nibble_rt (by omega), nibble_rt (by omega)]
    have : b.toNat / 16 * 16 + b.toNat % 16 = b.toNat := by omega
    simp only [Option.bind_some]
    rw [this]; simp

theorem unescape_flatMap (s : Bytes) : unescape (s.flatMap escapeByte) = some s := by
  induction s with
  | nil => rfl
  | cons b r ih => rw [List.flatMap_cons, unescape_escape_append, ih]; rfl

theorem flatMap_plain {s : Bytes} (h : s.all plainByte = true) : s.flatMap escapeByte = s := by
  induction s with
  | nil => rfl
  | cons b r ih =>
    simp only [List.all_cons, Bool.and_eq_true] at h
    rw [List.flatMap_cons, ih h.2]
    simp [escapeByte, h.1]

theorem encodeName_eq (n : String) : encodeName n = (strBytes n).flatMap escapeByte := by
  unfold encodeName
  split
  · rename_i h; rw [flatMap_plain h]
  · rfl

theorem parseName_encodeName (n : String) : parseName (encodeName n) = some n := by
  unfold parseName
  rw [encodeName_eq, unescape_flatMap]
  exact fromUTF8_strBytes n

theorem encodeName_chars (n : String) : ∀ b ∈ encodeName n, plainByte b ∨ b = 95 := by
  rw [encodeName_eq]
  intro b hb
  obtain ⟨c, -, hc⟩ := List.mem_flatMap.mp hb
  unfold escapeByte at hc
  split at hc
  · rename_i h; simp at hc; subst hc; exact .inl h
  · have hb : c.toNat < 256 := c.toNat_lt
    simp at hc
    rcases hc with rfl | rfl | rfl
    · exact .inr rfl
    · exact .inl (nibble_plain (by omega))
    · exact .inl (nibble_plain (by omega))

theorem no_dot (n : String) : (46 : UInt8) ∉ encodeName n := by
  intro h
  rcases encodeName_chars n _ h with h | h
  · exact absurd h (by decide)
  · exact absurd h (by decide)

theorem splitDots_no_dot {s : Bytes} (h : (46 : UInt8) ∉ s) : splitDots s = [s] := by
  induction s with
  | nil => rfl
  | cons b r ih =>
    simp only [List.mem_cons, not_or] at h
    rw [splitDots, if_neg (fun e => h.1 e.symm), ih h.2]

theorem splitDots_cons {s t : Bytes} (h : (46 : UInt8) ∉ s) :
    splitDots (s ++ 46 :: t) = s :: splitDots t := by
  induction s with
  | nil => simp [splitDots]
  | cons b r ih =>
    simp only [List.mem_cons, not_or] at h
    rw [List.cons_append, splitDots, if_neg (fun e => h.1 e.symm), ih h.2]

theorem splitDots_join {b : Bytes} {l : List Bytes} (hb : (46 : UInt8) ∉ b)
    (h : ∀ s ∈ l, (46 : UInt8) ∉ s) :
    splitDots (b ++ l.flatMap (fun s => 46 :: s)) = b :: l := by
  induction l generalizing b with
  | nil => simpa using splitDots_no_dot hb
  | cons c l ih =>
    rw [List.flatMap_cons, List.cons_append, splitDots_cons hb,
      ih (h c (by simp)) (fun s hs => h s (by simp [hs]))]

theorem rsplitOnce_append (p q : Bytes) (h : (46 : UInt8) ∉ q) :
    rsplitOnce (p ++ 46 :: q) = some (p, q) := by
  unfold rsplitOnce
  have hr : (p ++ 46 :: q).reverse = q.reverse ++ 46 :: p.reverse := by simp
  have hf : (q.reverse ++ 46 :: p.reverse).findIdx? (fun b => b == (46 : UInt8))
      = some q.reverse.length := by
    have hn : (46 : UInt8) ∉ q.reverse := by simpa using h
    generalize q.reverse = l at hn
    generalize p.reverse = m
    induction l with
    | nil => simp [List.findIdx?_cons]
    | cons a p ih =>
      simp only [List.mem_cons, not_or] at hn
      have ha : (a == 46) = false := beq_eq_false_iff_ne.mpr (fun e => hn.1 e.symm)
      simp only [List.cons_append, List.findIdx?_cons, ha, ih hn.2]
      simp
  simp only [hr, hf]
  have h2 : (q.reverse ++ 46 :: p.reverse).drop (q.reverse.length + 1) = p.reverse := by
    rw [← List.drop_drop]; simp
  rw [h2]
  simp

/-! ## C15 -/

/-- **C15.** An encoded name parses back to the name. -/
theorem C15_name_round_trip (n : String) : parseName (encodeName n) = some n :=
  parseName_encodeName n

/-- **C15.** Encodings only use ASCII letters, digits, `-` and `_` (so never a `.`, a path
separator or a non-ASCII character). -/
theorem C15_encoding_alphabet (n : String) (b : UInt8) (h : b ∈ encodeName n) :
    (48 ≤ b.toNat ∧ b.toNat ≤ 57) ∨ (65 ≤ b.toNat ∧ b.toNat ≤ 90) ∨
      (97 ≤ b.toNat ∧ b.toNat ≤ 122) ∨ b = 45 ∨ b = 95 := by
  rcases encodeName_chars n b h with h | h
  · simp only [plainByte, Bool.or_eq_true, Bool.and_eq_true, decide_eq_true_eq, beq_iff_eq] at h
    rcases h with ((h | h) | h) | h
    · exact .inl h
    · exact .inr (.inl h)
    · exact .inr (.inr (.inl h))
    · exact .inr (.inr (.inr (.inl (UInt8.toNat_inj.mp h))))
  · exact .inr (.inr (.inr (.inr h)))

/-- **C15.** An encoded schema or collection name parses back to the same name. -/
theorem C15_qualified_round_trip (q : QName) : parseQ (encodeQ q) = some q := by
  unfold parseQ encodeQ
  rw [splitDots_cons (no_dot _), splitDots_no_dot (no_dot _)]
  simp [parseName_encodeName]

/-- **C15.** An encoded view name parses back to the same view name. -/
theorem C15_view_round_trip (v : VName) : parseV (encodeV v) = some v := by
  unfold parseV encodeV
  rw [rsplitOnce_append _ _ (no_dot _)]
  simp [C15_qualified_round_trip, parseName_encodeName]

/-- **C15.** Distinct names, qualified names and view names have distinct encodings. -/
theorem C15_encoded_injective :
    (∀ a b : String, encodeName a = encodeName b → a = b) ∧
    (∀ a b : QName, encodeQ a = encodeQ b → a = b) ∧
    (∀ a b : VName, encodeV a = encodeV b → a = b) := by
  refine ⟨fun a b h => ?_, fun a b h => ?_, fun a b h => ?_⟩
  · exact Option.some.inj ((parseName_encodeName a).symm.trans (h ▸ parseName_encodeName b))
  · exact Option.some.inj
      ((C15_qualified_round_trip a).symm.trans (h ▸ C15_qualified_round_trip b))
  · exact Option.some.inj ((C15_view_round_trip a).symm.trans (h ▸ C15_view_round_trip b))

def treeParts : Tree → List Bytes
  | .documents c => [strBytes "collection", encodeName c.authority, encodeName c.name]
  | .viewEntries v => [strBytes "view", encodeName v.collection.authority,
      encodeName v.collection.name, encodeName v.name]
  | .viewDocMap v => [strBytes "view", encodeName v.collection.authority,
      encodeName v.collection.name, encodeName v.name, strBytes "document-map"]
  | .viewInvalidated v => [strBytes "view", encodeName v.collection.authority,
      encodeName v.collection.name, encodeName v.name, strBytes "invalidated"]
  | .viewVersions c => [strBytes "view-versions", encodeName c.authority, encodeName c.name]

theorem splitDots_treeName (t : Tree) : splitDots (treeName t) = treeParts t := by
  have key : ∀ (b : Bytes) (l : List Bytes) (s : Bytes), s = b ++ l.flatMap (fun s => 46 :: s) →
      (46 : UInt8) ∉ b → (∀ s ∈ l, (46 : UInt8) ∉ s) → splitDots s = b :: l := by
    intro b l s hs hb hl; rw [hs]; exact splitDots_join hb hl
  have d1 : (46 : UInt8) ∉ strBytes "collection" := by decide
  have d2 : (46 : UInt8) ∉ strBytes "view" := by decide
  have d3 : (46 : UInt8) ∉ strBytes "view-versions" := by decide
  have d4 : (46 : UInt8) ∉ strBytes "document-map" := by decide
  have d5 : (46 : UInt8) ∉ strBytes "invalidated" := by decide
  have e1 : strBytes "collection." = strBytes "collection" ++ [46] := by decide
  have e2 : strBytes "view." = strBytes "view" ++ [46] := by decide
  have e3 : strBytes "view-versions." = strBytes "view-versions" ++ [46] := by decide
  have e4 : strBytes ".document-map" = 46 :: strBytes "document-map" := by decide
  have e5 : strBytes ".invalidated" = 46 :: strBytes "invalidated" := by decide
  cases t <;> simp only [treeName, treeParts] <;> apply key <;>
    simp [encodeQ, encodeV, e1, e2, e3, e4, e5, d1, d2, d3, d4, d5, no_dot]

/-- **C15.** Storage trees of distinct collections and views, and the different trees of one view,
never share a name. -/
theorem C15_tree_names_distinct (s t : Tree) (h : treeName s = treeName t) : s = t := by
  have hp : treeParts s = treeParts t := by
    rw [← splitDots_treeName, ← splitDots_treeName, h]
  have c1 : strBytes "collection" ≠ strBytes "view-versions" := by decide
  have c2 : strBytes "document-map" ≠ strBytes "invalidated" := by decide
  obtain ⟨inj, -, -⟩ := C15_encoded_injective
  have qe : ∀ c c' : QName, encodeName c.authority = encodeName c'.authority →
      encodeName c.name = encodeName c'.name → c = c' := by
    rintro ⟨a, n⟩ ⟨a', n'⟩ h1 h2
    simp only at h1 h2
    rw [inj _ _ h1, inj _ _ h2]
  have ve : ∀ v v' : VName, encodeName v.collection.authority = encodeName v'.collection.authority →
      encodeName v.collection.name = encodeName v'.collection.name →
      encodeName v.name = encodeName v'.name → v = v' := by
    rintro ⟨c, n⟩ ⟨c', n'⟩ h1 h2 h3
    simp only at h1 h2 h3
    rw [qe _ _ h1 h2, inj _ _ h3]
  cases s <;> cases t <;> simp [treeParts, c1, c1.symm, c2, c2.symm] at hp
  · rw [qe _ _ hp.1 hp.2]
  · rw [ve _ _ hp.1 hp.2.1 hp.2.2]
  · rw [ve _ _ hp.1 hp.2.1 hp.2.2]
  · rw [ve _ _ hp.1 hp.2.1 hp.2.2]
  · rw [qe _ _ hp.1 hp.2]

/-- Specification of a well-formed escape: after every `_` come two lower-case hex digits. -/
inductive WellFormed : Bytes → Prop
  | nil : WellFormed []
  | plain {b r} : b ≠ 95 → WellFormed r → WellFormed (b :: r)
  | esc {h l r} : (h ∈ strBytes "0123456789abcdef") → (l ∈ strBytes "0123456789abcdef") →
      WellFormed r → WellFormed (95 :: h :: l :: r)

theorem hexToNibble_iff (b : UInt8) :
    (hexToNibble b).isSome ↔ b ∈ strBytes "0123456789abcdef" := by
  have h0 : strBytes "0123456789abcdef" =
      [48, 49, 50, 51, 52, 53, 54, 55, 56, 57, 97, 98, 99, 100, 101, 102] := by decide
  rw [h0]
  have key : ∀ i : Fin 256, (hexToNibble (UInt8.ofNat i.val)).isSome ↔
      (UInt8.ofNat i.val) ∈ ([48, 49, 50, 51, 52, 53, 54, 55, 56, 57, 97, 98, 99, 100, 101, 102] : Bytes) := by
    set_option maxRecDepth 100000 in decide
  have := key ⟨b.toNat, b.toNat_lt⟩
  simpa using this

theorem unescape_isSome_iff (s : Bytes) : (unescape s).isSome ↔ WellFormed s := by
  have : ∀ n, ∀ s : Bytes, s.length ≤ n → ((unescape s).isSome ↔ WellFormed s) := by
    intro n
    induction n with
    | zero =>
      intro s hs
      have : s = [] := List.length_eq_zero_iff.mp (by omega)
      subst this
      exact ⟨fun _ => .nil, fun _ => rfl⟩
    | succ n ih =>
      intro s hs
      match s with
      | [] => exact ⟨fun _ => .nil, fun _ => rfl⟩
      | b :: r =>
        by_cases hb : b = 95
        · subst hb
          match r with
          | [] =>
            constructor
            · intro h; simp [unescape] at h
            · intro h; cases h; contradiction
          | [x] =>
            constructor
            · intro h; simp [unescape] at h
            · intro h; cases h; contradiction
          | x :: y :: r' =>
            have ihr := ih r' (by simp at hs; omega)
            rw [unescape.eq_def]
            simp only [if_true]
            constructor
            · intro h
              cases hx : hexToNibble x with
              | none => simp [hx] at h
              | some u =>
                cases hy : hexToNibble y with
                | none => simp [hx, hy] at h
                | some v =>
                  simp only [hx, hy, Option.bind_some, Option.isSome_map] at h
                  exact .esc ((hexToNibble_iff x).mp (by simp [hx]))
                    ((hexToNibble_iff y).mp (by simp [hy])) (ihr.mp h)
            · intro h
              cases h with
              | plain h0 => exact absurd rfl h0
              | esc h1 h2 h3 =>
                obtain ⟨u, hu⟩ := Option.isSome_iff_exists.mp ((hexToNibble_iff x).mpr h1)
                obtain ⟨v, hv⟩ := Option.isSome_iff_exists.mp ((hexToNibble_iff y).mpr h2)
                simp [hu, hv, ihr.mpr h3]
        · have ihr := ih r (by simp at hs; omega)
          rw [unescape_plain hb]
          simp only [Option.isSome_map]
          rw [ihr]
          constructor
          · exact .plain hb
          · intro h
            cases h with
            | plain _ h => exact h
            | esc => exact absurd rfl hb
  exact this s.length s (Nat.le_refl _)

/-- **C15.** `parse_encoded` rejects every text with a malformed escape. -/
theorem C15_malformed_rejected (s : Bytes) (h : ¬ WellFormed s) : parseName s = none := by
  unfold parseName
  have : ¬ (unescape s).isSome := fun h' => h ((unescape_isSome_iff s).mp h')
  rw [Option.not_isSome_iff_eq_none.mp this]
  rfl

/-- **C15.** A qualified name with other than exactly one `.` is rejected. -/
theorem C15_wrong_dot_count_rejected (s : Bytes) (h : (splitDots s).length ≠ 2) :
    parseQ s = none := by
  unfold parseQ
  split
  · rename_i a n he; rw [he] at h; simp at h
  · rfl

theorem splitDots_length (s : Bytes) : (splitDots s).length = s.count 46 + 1 := by
  induction s with
  | nil => rfl
  | cons b r ih =>
    rw [splitDots]
    split
    · rename_i h; subst h; simp [ih]
    · rename_i h
      rw [List.count_cons_of_ne (by simpa using h)]
      cases hs : splitDots r with
      | nil => rw [hs] at ih; simp at ih
      | cons p ps => rw [hs] at ih; simpa using ih

/-- The same, in terms of the number of dots in the text. -/
theorem C15_dot_count (s : Bytes) (h : s.count 46 ≠ 1) : parseQ s = none :=
  C15_wrong_dot_count_rejected s (by rw [splitDots_length]; omega)

/-! Non-vacuity -/
example : encodeName "._hello" = strBytes "_2e_5fhello" := by decide
example : ¬ WellFormed (strBytes "a_0z") := by
  intro h
  rw [← unescape_isSome_iff] at h
  exact absurd h (by decide)
example : encodeQ ⟨"a.b", "c"⟩ ≠ encodeQ ⟨"a", "b.c"⟩ := by decide
example : treeName (.viewEntries ⟨⟨"a", "b"⟩, "c"⟩) ≠ treeName (.viewVersions ⟨"a", "b.c"⟩) := by decide

end Bonsai.Names
