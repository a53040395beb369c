import Verif.Vault.Model

/-!
# C57: the vault's master keys survive restarts and crashes

`Vault::initialize`, `initialize_vault_key_storage` and `unseal`,
crates/bonsaidb-local/src/vault.rs:189-324.

A storage directory holds the file `master-keys` (absent, or some bytes); the vault key storage holds
the key pair for this storage.  `Storage::open` calls `initialize`; it may crash at any point.
HPKE and bincode are external and named by `Hpke`.
-/
set_option linter.unusedSimpArgs false
set_option linter.unusedSectionVars false

namespace Bonsai.Vault

/-- The external parts: what `hpke::single_shot_seal_in_place_detached` followed by
`bincode::serialize` writes (vault.rs:230-253), `bincode::deserialize::<HpkePayload>` (282-283) and
`open_in_place_detached` followed by `bincode::deserialize` (291-309). `MK` are the master keys. -/
structure Hpke (Pair Pub Rand MK Boxed : Type) where
  pub : Pair → Pub
  wrap : Pub → MK → Rand → Bytes
  parse : Bytes → Option Boxed
  unwrap : Pair → Boxed → Option MK

/-- What is assumed: the right key opens the box, and a file that was not written completely does not
parse (bincode runs out of bytes). -/
structure LawfulHpke {Pair Pub Rand MK Boxed : Type} (h : Hpke Pair Pub Rand MK Boxed) : Prop where
  unwrap_wrap : ∀ pair keys r, ∃ box, h.parse (h.wrap (h.pub pair) keys r) = some box ∧
    h.unwrap pair box = some keys
  incomplete : ∀ pub keys r b, b <+: h.wrap pub keys r → b ≠ h.wrap pub keys r → h.parse b = none

/-- The durable state. -/
structure Disk (Pair : Type) where
  file : Option Bytes
  stored : Option Pair

variable {Pair Pub Rand MK Boxed : Type}

/-- `Vault::unseal`, vault.rs:273-324: the file does not parse: an error; no vault key:
`VaultKeyNotFound`; the box does not open: `unwrap()` panics. -/
def unsealKeys (h : Hpke Pair Pub Rand MK Boxed) (d : Disk Pair) (file : Bytes) : Res MK :=
  match h.parse file with
  | none => .err
  | some box =>
    match d.stored with
    | none => .err
    | some pair =>
      match h.unwrap pair box with
      | some keys => .ok keys
      | none => .panic

/-- What a call of `Storage::open` does, with the durable state it leaves behind. -/
inductive Outcome (MK : Type) where
  | returned (r : Res MK)
  | crashed

/-- `Vault::initialize`, vault.rs:189-200, with every possible outcome, including a crash between any
two effects.  `keys` and `pair` are the freshly generated master keys and key pair. -/
inductive Open (h : Hpke Pair Pub Rand MK Boxed) : Disk Pair → Outcome MK → Disk Pair → Prop where
  /-- A crash before anything was changed. -/
  | crashEarly (d) : Open h d .crashed d
  /-- `master-keys` exists: `unseal`, which changes nothing (vault.rs:196). -/
  | existing (d) (file : Bytes) (hf : d.file = some file) : Open h d (.returned (unsealKeys h d file)) d
  /-- `set_vault_key_for` fails, vault.rs:210-218. The key storage is left as it was or holds the new key. -/
  | setFails (d) (pair : Pair) (s : Option Pair) (hf : d.file = none) (hs : s = d.stored ∨ s = some pair) :
      Open h d (.returned .err) { d with stored := s }
  /-- The crash happens after the vault key was stored, before the file is created. -/
  | crashAfterSet (d) (pair : Pair) (hf : d.file = none) :
      Open h d .crashed { d with stored := some pair }
  /-- `vault_key_for` did not return the stored key, vault.rs:223-229, 266-270. -/
  | keyNotReturned (d) (pair : Pair) (hf : d.file = none) :
      Open h d (.returned .err) { d with stored := some pair }
  /-- A crash between `File::create` and the end of `write_all`, vault.rs:255-257: the file holds a
  prefix of its contents. -/
  | crashWhileWriting (d) (pair : Pair) (keys : MK) (r : Rand) (b : Bytes) (hf : d.file = none)
      (hb : b <+: h.wrap (h.pub pair) keys r) : Open h d .crashed ⟨some b, some pair⟩
  /-- `File::create` or `write_all` fails: an error, and any prefix may be in the file. -/
  | writeFails (d) (pair : Pair) (keys : MK) (r : Rand) (b : Bytes) (hf : d.file = none)
      (hb : b <+: h.wrap (h.pub pair) keys r) : Open h d (.returned .err) ⟨some b, some pair⟩
  /-- Everything succeeds, vault.rs:259-264. -/
  | fresh (d) (pair : Pair) (keys : MK) (r : Rand) (hf : d.file = none) :
      Open h d (.returned (.ok keys)) ⟨some (h.wrap (h.pub pair) keys r), some pair⟩

/-- Any number of openings, one after the other (the storage directory is locked). -/
inductive Opens (h : Hpke Pair Pub Rand MK Boxed) : Disk Pair → List (Outcome MK) → Disk Pair → Prop where
  | nil (d) : Opens h d [] d
  | snoc {d d' d'' os o} (hs : Opens h d os d') (ho : Open h d' o d'') : Opens h d (os ++ [o]) d''

/-! ## Proofs -/

/-- The vault is set up with these keys. -/
def SetUp (h : Hpke Pair Pub Rand MK Boxed) (d : Disk Pair) (keys : MK) : Prop :=
  ∃ file pair box, d.file = some file ∧ d.stored = some pair ∧ h.parse file = some box ∧
    h.unwrap pair box = some keys

theorem setUp_open {h : Hpke Pair Pub Rand MK Boxed} {d d' : Disk Pair} {keys : MK} {o : Outcome MK}
    (hd : SetUp h d keys) (ho : Open h d o d') :
    d' = d ∧ (o = .crashed ∨ o = .returned (.ok keys)) := by
  obtain ⟨file, pair, box, h1, h2, h3, h4⟩ := hd
  cases ho with
  | crashEarly => exact ⟨rfl, .inl rfl⟩
  | existing file' hf =>
    rw [h1] at hf
    cases hf
    exact ⟨rfl, .inr (by simp [unsealKeys, h2, h3, h4])⟩
  | setFails _ _ hf => rw [h1] at hf; cases hf
  | crashAfterSet _ hf => rw [h1] at hf; cases hf
  | keyNotReturned _ hf => rw [h1] at hf; cases hf
  | crashWhileWriting _ _ _ _ hf => rw [h1] at hf; cases hf
  | writeFails _ _ _ _ hf => rw [h1] at hf; cases hf
  | fresh _ _ _ hf => rw [h1] at hf; cases hf

theorem open_ok_setUp {h : Hpke Pair Pub Rand MK Boxed} (hl : LawfulHpke h) {d d' : Disk Pair}
    {keys : MK} (ho : Open h d (.returned (.ok keys)) d') : SetUp h d' keys := by
  generalize hr : (Outcome.returned (Res.ok keys) : Outcome MK) = o at ho
  cases ho with
  | crashEarly => cases hr
  | existing file hf =>
    simp only [Outcome.returned.injEq] at hr
    unfold unsealKeys at hr
    split at hr
    · cases hr
    · rename_i box hp
      split at hr
      · cases hr
      · rename_i pair hs
        split at hr
        · rename_i k hu
          cases hr
          exact ⟨file, pair, box, hf, hs, hp, hu⟩
        · cases hr
  | setFails => cases hr
  | crashAfterSet => cases hr
  | keyNotReturned => cases hr
  | crashWhileWriting => cases hr
  | writeFails => cases hr
  | fresh pair keys' r hf =>
    cases hr
    obtain ⟨box, h1, h2⟩ := hl.unwrap_wrap pair keys r
    exact ⟨_, pair, box, rfl, rfl, h1, h2⟩

/-- **C57**: once an opening succeeded with certain master keys, every later opening that is not
interrupted succeeds with the same master keys — whatever happened before and whatever crashes happen
in between. -/
theorem C57_master_keys_survive (h : Hpke Pair Pub Rand MK Boxed) (hl : LawfulHpke h)
    (d d' d'' : Disk Pair) (before later : List (Outcome MK)) (keys : MK)
    (h1 : Opens h d (before ++ [.returned (.ok keys)]) d') (h2 : Opens h d' later d'') :
    d'' = d' ∧ ∀ o ∈ later, o = .crashed ∨ o = .returned (.ok keys) := by
  have hs : SetUp h d' keys := by
    generalize he : before ++ [Outcome.returned (Res.ok keys)] = os at h1
    cases h1 with
    | nil => simp at he
    | snoc hs ho =>
      obtain ⟨_, he⟩ := List.append_inj' he rfl
      simp only [List.cons.injEq, and_true] at he
      subst he
      exact open_ok_setUp hl ho
  clear h1
  induction h2 with
  | nil => exact ⟨rfl, by simp⟩
  | snoc h2 ho ih =>
    obtain ⟨rfl, ih⟩ := ih
    obtain ⟨rfl, ho'⟩ := setUp_open hs ho
    refine ⟨rfl, fun o hm => ?_⟩
    simp only [List.mem_append, List.mem_singleton] at hm
    rcases hm with hm | rfl
    · exact ih o hm
    · exact ho'

/-- An interrupted or failed write of `master-keys`: the file holds less than its contents. -/
def HalfWritten (h : Hpke Pair Pub Rand MK Boxed) (d : Disk Pair) : Prop :=
  ∃ pair keys r b, d.file = some b ∧ b <+: h.wrap (h.pub pair) keys r ∧ b ≠ h.wrap (h.pub pair) keys r

/-- **C57** (partial): after any history of openings and crashes of a new storage, opening it again
succeeds, unless `master-keys` was written only in part: either the vault is not set up yet and fresh
keys are generated, or it is set up and its keys are returned.  (Missing: a crash or full disk while
the file is written, see `C57_violated_crash_while_writing`.) -/
theorem C57_can_be_opened_partial [Nonempty Pair] [Nonempty MK] [Nonempty Rand]
    (h : Hpke Pair Pub Rand MK Boxed) (hl : LawfulHpke h) (s : Option Pair) (os : List (Outcome MK))
    (d : Disk Pair) (ho : Opens h ⟨none, s⟩ os d) (hw : ¬ HalfWritten h d) :
    ∃ keys d', Open h d (.returned (.ok keys)) d' := by
  have inv : d.file = none ∨ (∃ keys, SetUp h d keys) ∨ HalfWritten h d := by
    clear hw
    induction ho with
    | nil => exact .inl rfl
    | snoc hs ho ih =>
      have prefixCase : ∀ (pair : Pair) (keys : MK) (r : Rand) (b : Bytes),
          b <+: h.wrap (h.pub pair) keys r →
          (⟨some b, some pair⟩ : Disk Pair).file = none ∨ (∃ keys, SetUp h ⟨some b, some pair⟩ keys) ∨
            HalfWritten h ⟨some b, some pair⟩ := by
        intro pair keys r b hb
        by_cases he : b = h.wrap (h.pub pair) keys r
        · obtain ⟨box, h1, h2⟩ := hl.unwrap_wrap pair keys r
          exact .inr (.inl ⟨keys, b, pair, box, rfl, rfl, he ▸ h1, h2⟩)
        · exact .inr (.inr ⟨pair, keys, r, b, rfl, hb, he⟩)
      cases ho with
      | crashEarly => exact ih
      | existing => exact ih
      | setFails _ _ hf => exact .inl hf
      | crashAfterSet _ hf => exact .inl hf
      | keyNotReturned _ hf => exact .inl hf
      | crashWhileWriting pair keys r b hf hb => exact prefixCase pair keys r b hb
      | writeFails pair keys r b hf hb => exact prefixCase pair keys r b hb
      | fresh pair keys r hf => exact prefixCase pair keys r _ (List.prefix_refl _)
  obtain ⟨pair⟩ := ‹Nonempty Pair›
  obtain ⟨k⟩ := ‹Nonempty MK›
  obtain ⟨r⟩ := ‹Nonempty Rand›
  rcases inv with hf | ⟨keys, hs⟩ | hbad
  · exact ⟨k, _, .fresh d pair k r hf⟩
  · obtain ⟨file, pair, box, h1, h2, h3, h4⟩ := hs
    have := Open.existing (h := h) d file h1
    rw [show unsealKeys h d file = .ok keys by simp [unsealKeys, h2, h3, h4]] at this
    exact ⟨keys, d, this⟩
  · exact absurd hbad hw

/-- **C57 is violated**: if the process dies (or the disk is full) after `master-keys` was created and
before it was written completely, no later opening of the storage ever succeeds. -/
theorem C57_violated_crash_while_writing (h : Hpke Pair Pub Rand MK Boxed) (hl : LawfulHpke h)
    (d d' : Disk Pair) (pair : Pair) (keys : MK) (r : Rand) (b : Bytes) (hf : d.file = none)
    (hb : b <+: h.wrap (h.pub pair) keys r) (hne : b ≠ h.wrap (h.pub pair) keys r)
    (later : List (Outcome MK)) (h2 : Opens h ⟨some b, some pair⟩ later d') :
    Open h d .crashed ⟨some b, some pair⟩ ∧ ∀ o ∈ later, o = .crashed ∨ o = .returned .err := by
  refine ⟨.crashWhileWriting d pair keys r b hf hb, ?_⟩
  have hp := hl.incomplete _ _ _ _ hb hne
  have main : d' = ⟨some b, some pair⟩ ∧ ∀ o ∈ later, o = .crashed ∨ o = .returned .err := by
    induction h2 with
    | nil => exact ⟨rfl, by simp⟩
    | snoc h2 ho ih =>
      obtain ⟨rfl, ih⟩ := ih
      rename_i d2 os o1
      have key : d2 = ⟨some b, some pair⟩ ∧ (o1 = Outcome.crashed ∨ o1 = Outcome.returned (Res.err : Res MK)) := by
        cases ho with
        | crashEarly => exact ⟨rfl, .inl rfl⟩
        | existing file hf =>
          cases hf
          exact ⟨rfl, .inr (by simp [unsealKeys, hp])⟩
        | setFails _ _ hf => cases hf
        | crashAfterSet _ hf => cases hf
        | keyNotReturned _ hf => cases hf
        | crashWhileWriting _ _ _ _ hf => cases hf
        | writeFails _ _ _ _ hf => cases hf
        | fresh _ _ _ hf => cases hf
      refine ⟨key.1, fun o hm => ?_⟩
      simp only [List.mem_append, List.mem_singleton] at hm
      rcases hm with hm | rfl
      · exact ih o hm
      · exact key.2
  exact main.2

/-- A missing vault key is reported as an error, a wrong one panics; neither changes anything. -/
theorem C57_wrong_vault_key (h : Hpke Pair Pub Rand MK Boxed) (hl : LawfulHpke h) (pair : Pair)
    (keys : MK) (r : Rand) (other : Option Pair) (ho : ∀ box p, h.parse (h.wrap (h.pub pair) keys r) = some box →
      other = some p → h.unwrap p box = none) :
    unsealKeys h ⟨some (h.wrap (h.pub pair) keys r), other⟩ (h.wrap (h.pub pair) keys r) =
      match other with
      | none => .err
      | some _ => .panic := by
  obtain ⟨box, h1, h2⟩ := hl.unwrap_wrap pair keys r
  cases other with
  | none => simp [unsealKeys, h1]
  | some p => simp [unsealKeys, h1, ho box p h1 rfl]

/-! ## Non-vacuity -/
section Example

/-- A toy instance: key pairs and keys are bytes; the file is `[length tag, pair, key]`. -/
def exHpke : Hpke UInt8 UInt8 Unit UInt8 (UInt8 × UInt8) where
  pub p := p
  wrap p k _ := [p, k]
  parse
    | p :: k :: _ => some (p, k)
    | _ => none
  unwrap p b := if p = b.1 then some b.2 else none

theorem exHpke_lawful : LawfulHpke exHpke := by
  constructor
  · intro pair keys r
    exact ⟨(pair, keys), rfl, by simp [exHpke]⟩
  · intro pub keys r b hb hne
    obtain ⟨t, ht⟩ := hb
    match b, ht, hne with
    | [], _, _ => rfl
    | [x], _, _ => rfl
    | x :: y :: z, ht, hne =>
      simp [exHpke] at ht hne
      obtain ⟨rfl, rfl, rfl, rfl⟩ := ht
      simp at hne

example : ∃ d, Opens exHpke ⟨none, none⟩ ([.crashed, .returned (.ok 9)] : List (Outcome UInt8)) d :=
  ⟨_, .snoc (.snoc (.nil _) (.crashAfterSet _ 3 rfl)) (.fresh _ 4 9 () rfl)⟩

example : ([] : Bytes) <+: exHpke.wrap 1 2 () ∧ [] ≠ exHpke.wrap 1 2 () := by
  simp [exHpke]
end Example

end Bonsai.Vault
