import Verif.Vault.Model

/-!
# C45: stored bytes are read back unchanged
-/
set_option linter.unusedSimpArgs false
set_option linter.unusedSectionVars false

namespace Bonsai.Vault

variable {c : Crypto}

/-! ## bincode of `VaultPayload` -/

/-- What the Rust types guarantee: `key_version` is a `u32`, lengths are `u64`, a key name is a
string. -/
structure Payload.Valid (p : Payload) : Prop where
  version : p.keyVersion < 2 ^ 32
  payload : p.payload.length < 2 ^ 64
  nonce : p.nonce.length < 2 ^ 64
  name : ∀ s, p.keyId = .id s → s.length < 2 ^ 64 ∧ isUtf8 s = true

theorem toLE_length (w n : Nat) : (toLE w n).length = w := by simp [toLE, toBE_length]

theorem fromLE_toLE {w n : Nat} (h : n < 256 ^ w) : fromLE (toLE w n) = n := by
  simp [fromLE, toLE, fromBE_toBE h]

theorem toLE_fromLE (b : Bytes) : toLE b.length (fromLE b) = b := by
  have := toBE_fromBE b.reverse
  rw [List.length_reverse] at this
  simp [toLE, fromLE, this]

theorem fromLE_lt (b : Bytes) : fromLE b < 256 ^ b.length := by
  have := fromBE_lt b.reverse
  simpa [fromLE] using this

theorem getLE_toLE {w n : Nat} (h : n < 256 ^ w) (rest : Bytes) :
    getLE w (toLE w n ++ rest) = some (n, rest) := by
  have hl := toLE_length w n
  unfold getLE
  rw [if_pos (by simp [hl])]
  rw [List.take_append_of_le_length (by omega), List.drop_append_of_le_length (by omega)]
  rw [List.take_of_length_le (by omega), List.drop_of_length_le (by omega), fromLE_toLE h]
  rfl

theorem getLE_eq {w n : Nat} {b rest : Bytes} (h : getLE w b = some (n, rest)) :
    b = toLE w n ++ rest ∧ n < 256 ^ w := by
  unfold getLE at h
  split at h
  · rename_i hw
    simp only [Option.some.injEq, Prod.mk.injEq] at h
    obtain ⟨rfl, rfl⟩ := h
    have hl : (b.take w).length = w := by simp [hw]
    have h1 := toLE_fromLE (b.take w)
    have h2 := fromLE_lt (b.take w)
    rw [hl] at h1 h2
    rw [h1]
    exact ⟨(List.take_append_drop w b).symm, h2⟩
  · cases h

theorem getBytes_putBytes {s : Bytes} (h : s.length < 2 ^ 64) (rest : Bytes) :
    getBytes (putBytes s ++ rest) = some (s, rest) := by
  unfold getBytes putBytes
  rw [List.append_assoc, getLE_toLE (by simpa using h)]
  simp

theorem getBytes_eq {b s rest : Bytes} (h : getBytes b = some (s, rest)) :
    b = putBytes s ++ rest ∧ s.length < 2 ^ 64 := by
  unfold getBytes at h
  cases hg : getLE 8 b with
  | none => simp [hg] at h
  | some x =>
    obtain ⟨n, b'⟩ := x
    rw [hg] at h
    simp only at h
    split at h
    · rename_i hn
      simp only [Option.some.injEq, Prod.mk.injEq] at h
      obtain ⟨rfl, rfl⟩ := h
      obtain ⟨rfl, hlt⟩ := getLE_eq hg
      have hl : (b'.take n).length = n := by simp [hn]
      refine ⟨?_, by rw [hl]; simpa using hlt⟩
      unfold putBytes
      rw [hl, List.append_assoc, List.take_append_drop]
    · cases h

theorem getKeyId_putKeyId {k : KeyId} (h : ∀ s, k = .id s → s.length < 2 ^ 64 ∧ isUtf8 s = true)
    (rest : Bytes) : getKeyId (putKeyId k ++ rest) = some (k, rest) := by
  have h0 (rest) : getLE 4 (toLE 4 0 ++ rest) = some (0, rest) := getLE_toLE (by decide) _
  have h1 (rest) : getLE 4 (toLE 4 1 ++ rest) = some (1, rest) := getLE_toLE (by decide) _
  have h2 (rest) : getLE 4 (toLE 4 2 ++ rest) = some (2, rest) := getLE_toLE (by decide) _
  unfold getKeyId putKeyId
  cases k with
  | none => simp only [h0, Option.bind_some, if_true]
  | master => simp only [h1, Option.bind_some, if_true, Nat.one_ne_zero, if_false]
  | id s =>
    obtain ⟨hl, hu⟩ := h s rfl
    have hg := getBytes_putBytes hl rest
    rw [List.append_assoc, h2, Option.bind_some]
    rw [if_neg (show ¬ (2 : Nat) = 0 by decide), if_neg (show ¬ (2 : Nat) = 1 by decide),
      if_pos (rfl : (2 : Nat) = 2)]
    show (getBytes (putBytes s ++ rest)).bind _ = _
    rw [hg, Option.bind_some]
    exact if_pos hu

theorem getKeyId_eq {b rest : Bytes} {k : KeyId} (h : getKeyId b = some (k, rest)) :
    b = putKeyId k ++ rest ∧
      ∀ s, k = .id s → s.length < 2 ^ 64 ∧ isUtf8 s = true := by
  simp only [getKeyId, Option.bind_eq_some_iff] at h
  obtain ⟨⟨n, b'⟩, hg, h⟩ := h
  obtain ⟨hb, _⟩ := getLE_eq hg
  simp only at h
  split at h
  · rename_i h0
    subst h0
    simp only [Option.some.injEq, Prod.mk.injEq] at h
    obtain ⟨rfl, rfl⟩ := h
    exact ⟨hb, by simp⟩
  · split at h
    · rename_i h1
      subst h1
      simp only [Option.some.injEq, Prod.mk.injEq] at h
      obtain ⟨rfl, rfl⟩ := h
      exact ⟨hb, by simp⟩
    · split at h
      · rename_i h2
        subst h2
        simp only [Option.bind_eq_some_iff] at h
        obtain ⟨⟨s, b''⟩, hs, h⟩ := h
        obtain ⟨h2, h3⟩ := getBytes_eq hs
        simp only at h
        split at h
        · rename_i hu
          simp only [Option.some.injEq, Prod.mk.injEq] at h
          obtain ⟨rfl, rfl⟩ := h
          refine ⟨?_, ?_⟩
          · rw [hb, h2]; simp [putKeyId]
          · intro s' hs'
            simp only [KeyId.id.injEq] at hs'
            subst hs'
            exact ⟨h3, hu⟩
        · cases h
      · cases h

/-- bincode reads back what it wrote, whatever follows. -/
theorem parse_toVec {p : Payload} (h : p.Valid) (rest : Bytes) : parse (p.toVec ++ rest) = some p := by
  unfold parse Payload.toVec
  simp only [List.append_assoc]
  have h0 (rest) : getLE 4 (toLE 4 0 ++ rest) = some (0, rest) := getLE_toLE (by decide) _
  have h1 (rest) : getLE 4 (toLE 4 p.keyVersion ++ rest) = some (p.keyVersion, rest) :=
    getLE_toLE (by have := h.version; omega) _
  have h2 : getBytes (putBytes p.nonce ++ rest) = some (p.nonce, rest) := getBytes_putBytes h.nonce _
  have h3 (rest) : getBytes (putBytes p.payload ++ rest) = some (p.payload, rest) :=
    getBytes_putBytes h.payload _
  rw [getKeyId_putKeyId h.name, Option.bind_some]
  show (getLE 4 (toLE 4 p.keyVersion ++ _)).bind _ = _
  rw [h1, Option.bind_some]
  show (getLE 4 (toLE 4 0 ++ _)).bind _ = _
  rw [h0, Option.bind_some, if_pos (rfl : (0 : Nat) = 0)]
  show (getBytes (putBytes p.payload ++ _)).bind _ = _
  rw [h3, Option.bind_some]
  show (getBytes (putBytes p.nonce ++ _)).bind _ = _
  rw [h2, Option.bind_some]

/-- Only bytes that begin with a serialized `VaultPayload` are parsed as one. -/
theorem parse_eq {b : Bytes} {p : Payload} (h : parse b = some p) :
    p.Valid ∧ ∃ rest, b = p.toVec ++ rest := by
  simp only [parse, Option.bind_eq_some_iff] at h
  obtain ⟨⟨k, b1⟩, h1, ⟨v, b2⟩, h2, ⟨e, b3⟩, h3, h⟩ := h
  simp only at h2 h3 h
  split at h
  · rename_i he
    subst he
    simp only [Option.bind_eq_some_iff] at h
    obtain ⟨⟨s, b4⟩, h4, ⟨n, b5⟩, h5, h⟩ := h
    simp only at h5 h
    simp only [Option.some.injEq] at h
    subst h
    obtain ⟨e1, hn⟩ := getKeyId_eq h1
    obtain ⟨e2, hv⟩ := getLE_eq h2
    obtain ⟨e3, _⟩ := getLE_eq h3
    obtain ⟨e4, hp⟩ := getBytes_eq h4
    obtain ⟨e5, hno⟩ := getBytes_eq h5
    refine ⟨⟨by simpa using hv, hp, hno, hn⟩, b5, ?_⟩
    simp only [Payload.toVec, e1, e2, e3, e4, e5, List.append_assoc]
  · cases h

/-! ## Specification -/

/-- Writing `p` through the vault `t` succeeds, and reading what was written returns `p`. -/
def ReadsBack (c : Crypto) (ks : Keys) (b : Build) (t : Option TreeVault) (nonce p : Bytes) : Prop :=
  ∃ stored, store c ks b t nonce p = .ok stored ∧ load c ks b t stored = .ok p

/-- The bytes look like one of BonsaiDb's envelopes: they begin with `trv` and one more byte, or with a
serialized `VaultPayload`. -/
def LooksWrapped (b : Build) (p : Bytes) : Prop :=
  (b ≠ .encryptionOnly ∧ ∃ h rest, p = [0x74, 0x72, 0x76, h] ++ rest) ∨
    (b ≠ .compressionOnly ∧ ∃ q : Payload, q.Valid ∧ ∃ rest, p = q.toVec ++ rest)

/-! ## Proofs -/

theorem toVec_valid (hc : LawfulCrypto c) {ks : Keys} (hks : ks.current < 2 ^ 32) {nonce p : Bytes}
    (hn : nonce.length = 24) (hp : p.length < 2 ^ 40) :
    Payload.Valid ⟨.master, ks.current, c.closeBox ks.key nonce p, nonce⟩ := by
  refine ⟨hks, ?_, ?_, by simp⟩
  · have := hc.close_length ks.key nonce p
    show (c.closeBox ks.key nonce p).length < _
    omega
  · show nonce.length < _
    omega

theorem parse_toVec' {p : Payload} (h : p.Valid) : parse p.toVec = some p := by
  have h := parse_toVec h []
  rwa [List.append_nil] at h

theorem decryptPayload_master {ks : Keys} {b : Bytes} {p : Payload} (h : parse b = some p)
    (hk : p.keyId = .master) (hn : p.nonce.length = 24) :
    decryptPayload c ks b = Res.ofOption (c.openBox ks.key p.nonce p.payload) := by
  unfold decryptPayload
  rw [h]
  simp only [hk, if_pos hn]

theorem decryptPayload_bad {ks : Keys} {b : Bytes} {p : Payload} (h : parse b = some p)
    (hbad : p.keyId ≠ .master ∨ p.nonce.length ≠ 24) : decryptPayload c ks b = .panic := by
  unfold decryptPayload
  rw [h]
  simp only
  cases hk : p.keyId with
  | none => rfl
  | id s => rfl
  | master =>
    rcases hbad with h | h
    · exact absurd hk h
    · simp [h]

theorem decryptPayload_encryptPayload (hc : LawfulCrypto c) {ks : Keys} (hks : ks.current < 2 ^ 32)
    {nonce p : Bytes} (hn : nonce.length = 24) (hp : p.length < 2 ^ 40) :
    decryptPayload c ks (Payload.toVec ⟨.master, ks.current, c.closeBox ks.key nonce p, nonce⟩) = .ok p := by
  have hv := toVec_valid (c := c) hc hks hn hp
  rw [decryptPayload_master (parse_toVec' hv) rfl hn]
  show Res.ofOption (c.openBox ks.key nonce (c.closeBox ks.key nonce p)) = _
  rw [hc.open_close _ _ _ hn]
  rfl

theorem decompress_compressPrepend (hc : LawfulCrypto c) {p : Bytes} (hp : p.length < 2 ^ 32) :
    decompressPrepended c (compressPrepend c p) = .ok p := by
  unfold decompressPrepended compressPrepend
  rw [getLE_toLE (by omega)]
  show Res.ofOption (c.decompress p.length (c.compress p)) = _
  rw [hc.decompress_compress]
  rfl

theorem compressPrepend_length (hc : LawfulCrypto c) {p : Bytes} (hp : p.length < 2 ^ 32) :
    (compressPrepend c p).length < 2 ^ 40 := by
  have := hc.compress_length p
  simp only [compressPrepend, List.length_append, toLE_length]
  omega

theorem decrypt_wrapped_both {ks : Keys} (h : UInt8) (out : Bytes) :
    decrypt c ks .both (magic ++ [h] ++ out) =
      (if h &&& 0x80 ≠ 0 then decryptPayload c ks out else .ok out).bind fun d =>
        if h &&& 0x7f = 1 then decompressPrepended c d else .ok d := by
  unfold decrypt
  simp [magic]

theorem toVec_master_head (ks : Keys) (x nonce : Bytes) :
    ∃ rest, Payload.toVec ⟨.master, ks.current, x, nonce⟩ = [1, 0, 0, 0] ++ rest := by
  refine ⟨toLE 4 ks.current ++ toLE 4 0 ++ putBytes x ++ putBytes nonce, ?_⟩
  have : toLE 4 1 = [1, 0, 0, 0] := by decide
  simp [Payload.toVec, putKeyId, this]

theorem encrypt_both_compressed (c : Crypto) (ks : Keys) (nonce p : Bytes) (hl : 128 ≤ p.length) :
    TreeVault.encrypt c ks .both ⟨true, some .master⟩ nonce p =
      .ok (magic ++ [0x81] ++ Payload.toVec ⟨.master, ks.current,
        c.closeBox ks.key nonce (compressPrepend c p), nonce⟩) := by
  have h1 : (decide (128 ≤ p.length) && true) = true := by simp [hl]
  unfold TreeVault.encrypt
  simp only [h1, if_true, encryptPayload, Res.map_ok]
  rw [if_pos (by decide)]
  rfl

theorem encrypt_both_plain (c : Crypto) (ks : Keys) (comp : Bool) (nonce p : Bytes)
    (hi : (decide (128 ≤ p.length) && comp) = false) :
    TreeVault.encrypt c ks .both ⟨comp, some .master⟩ nonce p =
      .ok (magic ++ [0x80] ++ Payload.toVec ⟨.master, ks.current, c.closeBox ks.key nonce p, nonce⟩) := by
  have hh : TreeVault.header ⟨comp, some .master⟩ false = 0x80 := by cases comp <;> decide
  unfold TreeVault.encrypt
  simp only [hi, encryptPayload, Res.map_ok, hh, Bool.false_eq_true, if_false]
  rw [if_pos (by decide)]

theorem encrypt_encryptionOnly (c : Crypto) (ks : Keys) (comp : Bool) (nonce p : Bytes) :
    TreeVault.encrypt c ks .encryptionOnly ⟨comp, some .master⟩ nonce p =
      .ok (Payload.toVec ⟨.master, ks.current, c.closeBox ks.key nonce p, nonce⟩) := rfl

theorem load_encryptionOnly (ks : Keys) (t : TreeVault) (x : Bytes) :
    load c ks .encryptionOnly (some t) x = decryptPayload c ks x := rfl

theorem magic_append (h : UInt8) (x : Bytes) : magic ++ [h] ++ x = [0x74, 0x72, 0x76, h] ++ x := rfl

/-- **C45** with an encryption key: every payload is read back unchanged, with or without compression,
in either build that has encryption. -/
theorem C45_encrypted_read_back (hc : LawfulCrypto c) (ks : Keys) (hks : ks.current < 2 ^ 32)
    (b : Build) (t : TreeVault) (hb : t.fits b) (hk : t.key = some .master) (nonce p : Bytes)
    (hn : nonce.length = 24) (hp : p.length < 2 ^ 32) : ReadsBack c ks b (some t) nonce p := by
  obtain ⟨comp, key⟩ := t
  simp only at hk
  subst hk
  cases b with
  | compressionOnly => simp [TreeVault.fits] at hb
  | encryptionOnly =>
    refine ⟨_, encrypt_encryptionOnly c ks comp nonce p, ?_⟩
    rw [load_encryptionOnly]
    exact decryptPayload_encryptPayload hc hks hn (by omega)
  | both =>
    by_cases hi : (decide (128 ≤ p.length) && comp) = true
    · refine ⟨magic ++ [0x81] ++ Payload.toVec ⟨.master, ks.current,
        c.closeBox ks.key nonce (compressPrepend c p), nonce⟩, ?_, ?_⟩
      · simp only [Bool.and_eq_true, decide_eq_true_eq] at hi
        obtain ⟨hl, rfl⟩ := hi
        exact encrypt_both_compressed c ks nonce p hl
      · simp only [load]
        rw [decrypt_wrapped_both]
        rw [if_pos (by decide), decryptPayload_encryptPayload hc hks hn (compressPrepend_length hc hp)]
        simp only [Res.bind_ok]
        rw [if_pos (by decide)]
        exact decompress_compressPrepend hc hp
    · refine ⟨magic ++ [0x80] ++ Payload.toVec ⟨.master, ks.current,
        c.closeBox ks.key nonce p, nonce⟩, ?_, ?_⟩
      · exact encrypt_both_plain c ks comp nonce p (by simpa using hi)
      · simp only [load]
        rw [decrypt_wrapped_both]
        rw [if_pos (by decide), decryptPayload_encryptPayload hc hks hn (by omega)]
        simp only [Res.bind_ok]
        rw [if_neg (by decide)]

/-- **C45** without an encryption key: payloads that are compressed (128 bytes and more) are read back
unchanged. -/
theorem C45_compressed_read_back (hc : LawfulCrypto c) (ks : Keys) (b : Build) (t : TreeVault)
    (hb : t.fits b) (hk : t.key = none) (ht : t.compression = true) (nonce p : Bytes)
    (hl : 128 ≤ p.length) (hp : p.length < 2 ^ 32) : ReadsBack c ks b (some t) nonce p := by
  obtain ⟨comp, key⟩ := t
  simp only at hk ht
  subst hk ht
  cases b with
  | encryptionOnly => simp [TreeVault.fits] at hb
  | compressionOnly =>
    refine ⟨magic ++ [1] ++ compressPrepend c p, ?_, ?_⟩
    · simp [store, TreeVault.encrypt, hl]
    · simp only [load, decrypt]
      have h4 : 4 ≤ (magic ++ [1] ++ compressPrepend c p).length := by simp [magic]
      rw [if_pos ⟨h4, by simp [magic]⟩]
      have hg : (magic ++ [1] ++ compressPrepend c p).getD 3 0 = 1 := by simp [magic]
      have hd : (magic ++ [1] ++ compressPrepend c p).drop 4 = compressPrepend c p := by simp [magic]
      rw [hg, hd, if_neg (by decide), if_pos (by decide)]
      exact decompress_compressPrepend hc hp
  | both =>
    refine ⟨magic ++ [1] ++ compressPrepend c p, ?_, ?_⟩
    · simp only [store, TreeVault.encrypt, hl, decide_true, Bool.and_self, if_true, Res.map_ok,
        TreeVault.header, Option.isSome_none, and_self, Bool.false_eq_true, if_false]
      rfl
    · simp only [load]
      rw [decrypt_wrapped_both, if_neg (by decide)]
      simp only [Res.bind_ok]
      rw [if_pos (by decide)]
      exact decompress_compressPrepend hc hp

/-- What is stored for a payload that is neither encrypted nor compressed: the payload itself. -/
theorem store_plain (c : Crypto) (ks : Keys) (b : Build) (t : TreeVault) (hk : t.key = none)
    (hp : p.length < 128 ∨ t.compression = false) (nonce : Bytes) :
    store c ks b (some t) nonce p = .ok p := by
  obtain ⟨comp, key⟩ := t
  simp only at hk hp
  subst hk
  have hi : (decide (128 ≤ p.length) && comp) = false := by
    rcases hp with h | h
    · simp; intro; omega
    · simp [h]
  cases b with
  | encryptionOnly => rfl
  | compressionOnly =>
    have : ¬ (128 ≤ p.length ∧ comp = true) := by
      rintro ⟨a, b⟩
      simp [a, b] at hi
    simp [store, TreeVault.encrypt, this]
  | both =>
    simp [store, TreeVault.encrypt, hi, TreeVault.header]

theorem not_magic {p : Bytes} (h : ¬ ∃ x rest, p = [0x74, 0x72, 0x76, x] ++ rest) :
    ¬ (4 ≤ p.length ∧ p.take 3 = magic) := by
  rintro ⟨h4, h3⟩
  apply h
  match p, h4, h3 with
  | a :: b' :: d :: e :: rest, _, h3 =>
    simp [magic] at h3
    obtain ⟨rfl, rfl, rfl⟩ := h3
    exact ⟨e, rest, rfl⟩

theorem decryptPayload_plain {ks : Keys} {p : Bytes}
    (h : ¬ ∃ q : Payload, q.Valid ∧ ∃ rest, p = q.toVec ++ rest) : decryptPayload c ks p = .ok p := by
  unfold decryptPayload
  cases hp : parse p with
  | none => rfl
  | some q =>
    obtain ⟨a, r, b⟩ := parse_eq hp
    exact absurd ⟨q, a, r, b⟩ h

/-- **C45** (partial) without an encryption key, for payloads that are not compressed (shorter than
128 bytes): they are read back unchanged if they do not look like an envelope.  (Missing: payloads
that do; see the `C45_violated` theorems.) -/
theorem C45_plain_read_back_partial (c : Crypto) (ks : Keys) (b : Build) (t : TreeVault)
    (hk : t.key = none) (nonce p : Bytes) (hp : p.length < 128 ∨ t.compression = false)
    (hw : ¬ LooksWrapped b p) : ReadsBack c ks b (some t) nonce p := by
  refine ⟨p, store_plain c ks b t hk hp nonce, ?_⟩
  unfold LooksWrapped at hw
  simp only [not_or, not_and] at hw
  cases b with
  | both =>
    simp only [load, decrypt]
    rw [if_neg (not_magic (hw.1 (by decide))), decryptPayload_plain (hw.2 (by decide))]
  | compressionOnly =>
    simp only [load, decrypt]
    rw [if_neg (not_magic (hw.1 (by decide)))]
  | encryptionOnly =>
    simp only [load, decrypt]
    rw [decryptPayload_plain (hw.2 (by decide))]

/-- **C45 is violated**: with compression on and no key, a payload of fewer than 128 bytes that begins
with `trv` and a byte below 128 other than 1 is stored as it is, and read back without its first four
bytes. -/
theorem C45_violated_trv_prefix (c : Crypto) (ks : Keys) (b : Build) (hb : b ≠ .encryptionOnly)
    (nonce rest : Bytes) (h : UInt8) (hh : h &&& 0x80 = 0) (h1 : h &&& 0x7f ≠ 1)
    (hl : rest.length < 124) :
    let p := [0x74, 0x72, 0x76, h] ++ rest
    store c ks b (some ⟨true, none⟩) nonce p = .ok p ∧ load c ks b (some ⟨true, none⟩) p = .ok rest ∧
      rest ≠ p ∧ ¬ ReadsBack c ks b (some ⟨true, none⟩) nonce p := by
  intro p
  have hs : store c ks b (some ⟨true, none⟩) nonce p = .ok p :=
    store_plain c ks b ⟨true, none⟩ rfl (.inl (by simp [p]; omega)) nonce
  have hload : load c ks b (some ⟨true, none⟩) p = .ok rest := by
    cases b with
    | encryptionOnly => exact absurd rfl hb
    | both =>
      have := decrypt_wrapped_both (c := c) (ks := ks) h rest
      simp only [hh, h1, ne_eq, not_true_eq_false, if_false, Res.bind_ok] at this
      exact this
    | compressionOnly => simp [load, decrypt, p, magic, hh, h1]
  have hne : rest ≠ p := by
    intro he
    have := congrArg List.length he
    simp [p] at this
    omega
  refine ⟨hs, hload, hne, ?_⟩
  rintro ⟨s, h2, h3⟩
  rw [hs] at h2
  cases h2
  rw [hload] at h3
  exact hne (Res.ok.inj h3)

/-- **C45 is violated**: in a build with both features, with compression on and no key, a short
payload that begins with a serialized `VaultPayload` is stored as it is, and reading it panics unless
the key id is `Master` and the nonce has 24 bytes (then its contents are "decrypted"). -/
theorem C45_violated_panic_on_read (c : Crypto) (ks : Keys) (nonce rest : Bytes) (q : Payload)
    (hq : q.Valid) (hbad : q.keyId ≠ .master ∨ q.nonce.length ≠ 24)
    (hl : (q.toVec ++ rest).length < 128) :
    store c ks .both (some ⟨true, none⟩) nonce (q.toVec ++ rest) = .ok (q.toVec ++ rest) ∧
      load c ks .both (some ⟨true, none⟩) (q.toVec ++ rest) = .panic := by
  refine ⟨store_plain c ks .both ⟨true, none⟩ rfl (.inl hl) nonce, ?_⟩
  have hm : ¬ (4 ≤ (q.toVec ++ rest).length ∧ (q.toVec ++ rest).take 3 = magic) := by
    rintro ⟨_, h3⟩
    have h0 : toLE 4 0 = [0, 0, 0, 0] := by decide
    have h1 : toLE 4 1 = [1, 0, 0, 0] := by decide
    have h2 : toLE 4 2 = [2, 0, 0, 0] := by decide
    unfold Payload.toVec at h3
    cases hk : q.keyId <;> simp [hk, putKeyId, h0, h1, h2, magic] at h3
  simp only [load, decrypt]
  rw [if_neg hm]
  exact decryptPayload_bad (parse_toVec hq rest) hbad

/-- A key name other than the master key cannot be used: writing panics. -/
theorem C45_named_keys_panic (c : Crypto) (ks : Keys) (b : Build) (hb : b ≠ .compressionOnly)
    (t : TreeVault) (name : Bytes) (hk : t.key = some (.id name)) (nonce p : Bytes) :
    store c ks b (some t) nonce p = .panic := by
  obtain ⟨comp, key⟩ := t
  simp only at hk
  subst hk
  cases b with
  | compressionOnly => exact absurd rfl hb
  | both => simp [store, TreeVault.encrypt, encryptPayload]
  | encryptionOnly => simp [store, TreeVault.encrypt, encryptPayload]

/-- **C45**: what is stored with a key depends on the payload only through the cipher: if the cipher's
outputs agree on the (possibly compressed) payloads, the stored bytes agree.  No payload, however
short, is stored in the clear. -/
theorem C45_stored_through_the_cipher (c : Crypto) (ks : Keys) (b : Build) (t : TreeVault)
    (hb : t.fits b) (hk : t.key = some .master) (nonce p : Bytes) :
    ∃ (pre x post : Bytes), (x = p ∨ x = compressPrepend c p) ∧
      store c ks b (some t) nonce p = .ok (pre ++ c.closeBox ks.key nonce x ++ post) ∧
      pre.length ≤ 24 ∧ post = toLE 8 nonce.length ++ nonce ∧
      ∀ (c' : Crypto), c'.closeBox ks.key nonce x = c.closeBox ks.key nonce x →
        c'.compress = c.compress → store c' ks b (some t) nonce p = store c ks b (some t) nonce p := by
  obtain ⟨comp, key⟩ := t
  simp only at hk
  subst hk
  cases b with
  | compressionOnly => simp [TreeVault.fits] at hb
  | encryptionOnly =>
    refine ⟨toLE 4 1 ++ toLE 4 ks.current ++ toLE 4 0 ++ toLE 8 (c.closeBox ks.key nonce p).length, p,
      putBytes nonce, .inl rfl, ?_, ?_, rfl, ?_⟩
    · simp [store, TreeVault.encrypt, encryptPayload, Payload.toVec, putKeyId, putBytes]
    · simp [toLE_length]
    · intro c' h1 _
      simp only [store, TreeVault.encrypt, encryptPayload, h1]
  | both =>
    by_cases hi : (decide (128 ≤ p.length) && comp) = true
    · refine ⟨magic ++ [0x81] ++ toLE 4 1 ++ toLE 4 ks.current ++ toLE 4 0 ++
        toLE 8 (c.closeBox ks.key nonce (compressPrepend c p)).length, compressPrepend c p,
        putBytes nonce, .inr rfl, ?_, ?_, rfl, ?_⟩
      · simp only [Bool.and_eq_true, decide_eq_true_eq] at hi
        obtain ⟨hl, rfl⟩ := hi
        have := encrypt_both_compressed c ks nonce p hl
        simp only [store, this]
        simp only [Payload.toVec, putKeyId, putBytes, List.append_assoc]
      · simp [toLE_length, magic]
      · intro c' h1 h2
        have : compressPrepend c' p = compressPrepend c p := by simp [compressPrepend, h2]
        simp only [store, TreeVault.encrypt, encryptPayload, this, hi, if_true, h1]
    · refine ⟨magic ++ [0x80] ++ toLE 4 1 ++ toLE 4 ks.current ++ toLE 4 0 ++
        toLE 8 (c.closeBox ks.key nonce p).length, p, putBytes nonce, .inl rfl, ?_, ?_, rfl, ?_⟩
      · have := encrypt_both_plain c ks comp nonce p (by simpa using hi)
        simp only [store, this]
        simp only [Payload.toVec, putKeyId, putBytes, List.append_assoc]
      · simp [toLE_length, magic]
      · intro c' h1 h2
        simp only [store, TreeVault.encrypt, encryptPayload, hi, if_false, h1, Bool.false_eq_true]

/-- Readers and writers of a collection's trees use the same vault; with a default or collection key
every tree of the collection is encrypted with it. -/
theorem C45_readers_and_writers_agree (collectionKey defaultKey : Option KeyId) (compression : Bool) :
    let storage := newIfNeeded defaultKey compression
    readerVault collectionKey defaultKey storage = writerVault collectionKey defaultKey storage ∧
      (∀ k, collectionKey = some k → ∃ t, writerVault collectionKey defaultKey storage = some t ∧
        t.key = some k ∧ t.compression = compression) ∧
      (collectionKey = none → writerVault collectionKey defaultKey storage = storage) ∧
      (∀ k, defaultKey = some k → storage = some ⟨compression, some k⟩) := by
  intro storage
  cases collectionKey with
  | none =>
    cases defaultKey with
    | none => cases compression <;> simp [storage, newIfNeeded, readerVault, writerVault]
    | some k => cases compression <;> simp [storage, newIfNeeded, readerVault, writerVault]
  | some k =>
    cases defaultKey with
    | none => cases compression <;> simp [storage, newIfNeeded, readerVault, writerVault]
    | some k' => cases compression <;> simp [storage, newIfNeeded, readerVault, writerVault]

/-- Changing the configuration later does not matter: a tree written with one vault is read back the
same with any other vault of the same build. -/
theorem C45_configuration_may_change (c : Crypto) (ks : Keys) (b : Build) (t t' : TreeVault)
    (nonce p : Bytes) (h : ReadsBack c ks b (some t) nonce p) :
    ∃ stored, store c ks b (some t) nonce p = .ok stored ∧ load c ks b (some t') stored = .ok p := h

/-- Data written by a build with only one of the features is read back by a build with both. -/
theorem C45_adding_a_feature (hc : LawfulCrypto c) (ks : Keys) (hks : ks.current < 2 ^ 32)
    (b : Build) (t t' : TreeVault) (hb : t.fits b)
    (hk : t.key = some .master ∨ (t.key = none ∧ t.compression = true)) (nonce p : Bytes)
    (hn : nonce.length = 24) (hp : p.length < 2 ^ 32) (hl : t.key = none → 128 ≤ p.length) :
    ∃ stored, store c ks b (some t) nonce p = .ok stored ∧
      load c ks .both (some t') stored = .ok p := by
  obtain ⟨comp, key⟩ := t
  cases b with
  | both =>
    rcases hk with hk | ⟨hk, ht⟩
    · exact C45_encrypted_read_back hc ks hks .both _ hb hk nonce p hn hp
    · exact C45_compressed_read_back hc ks .both _ hb hk ht nonce p (hl hk) hp
  | encryptionOnly =>
    simp only [TreeVault.fits] at hb
    subst hb
    rcases hk with hk | ⟨_, ht⟩
    · simp only at hk
      subst hk
      refine ⟨_, encrypt_encryptionOnly c ks false nonce p, ?_⟩
      unfold load decrypt
      obtain ⟨r, hr⟩ := toVec_master_head ks (c.closeBox ks.key nonce p) nonce
      rw [if_neg (by rw [hr]; simp [magic])]
      exact decryptPayload_encryptPayload hc hks hn (by omega)
    · cases ht
  | compressionOnly =>
    simp only [TreeVault.fits] at hb
    subst hb
    rcases hk with hk | ⟨_, ht⟩
    · cases hk
    · simp only at ht
      subst ht
      have h128 := hl rfl
      refine ⟨magic ++ [1] ++ compressPrepend c p, by simp [store, TreeVault.encrypt, h128], ?_⟩
      simp only [load]
      rw [decrypt_wrapped_both, if_neg (by decide)]
      simp only [Res.bind_ok]
      rw [if_pos (by decide)]
      exact decompress_compressPrepend hc hp

/-- The converse fails silently: what a build with both features encrypted is returned by an
encryption-only build as the envelope itself, without an error. -/
theorem C45_removing_compression_returns_envelope (c : Crypto) (ks : Keys) (t : TreeVault)
    (hk : t.key = some .master) (nonce p : Bytes) :
    ∃ stored, store c ks .both (some t) nonce p = .ok stored ∧
      load c ks .encryptionOnly (some t) stored = .ok stored ∧
      ∃ h rest, stored = [0x74, 0x72, 0x76, h] ++ rest := by
  obtain ⟨comp, key⟩ := t
  simp only at hk
  subst hk
  have key : ∀ (h : UInt8) (rest : Bytes), decryptPayload c ks ([0x74, 0x72, 0x76, h] ++ rest) =
      .ok ([0x74, 0x72, 0x76, h] ++ rest) := by
    intro h rest
    refine decryptPayload_plain ?_
    rintro ⟨q, _, r, he⟩
    have h0 : toLE 4 0 = [0, 0, 0, 0] := by decide
    have h1 : toLE 4 1 = [1, 0, 0, 0] := by decide
    have h2 : toLE 4 2 = [2, 0, 0, 0] := by decide
    unfold Payload.toVec at he
    cases hk : q.keyId <;> simp [hk, putKeyId, h0, h1, h2] at he
  by_cases hi : (decide (128 ≤ p.length) && comp) = true
  · simp only [Bool.and_eq_true, decide_eq_true_eq] at hi
    obtain ⟨hl, rfl⟩ := hi
    refine ⟨_, encrypt_both_compressed c ks nonce p hl, ?_, _, _, magic_append _ _⟩
    rw [load_encryptionOnly, magic_append]
    exact key _ _
  · refine ⟨_, encrypt_both_plain c ks comp nonce p (by simpa using hi), ?_, _, _, magic_append _ _⟩
    rw [load_encryptionOnly, magic_append]
    exact key _ _

/-! ## Non-vacuity -/
section Example

/-- A (toy) lawful instance: the "cipher" xors nothing and "compression" copies. -/
def exCrypto : Crypto where
  closeBox _ _ m := m
  openBox _ _ b := some b
  compress m := m
  decompress _ b := some b

theorem exCrypto_lawful : LawfulCrypto exCrypto :=
  ⟨fun _ _ _ _ => rfl, fun _ => rfl, fun _ _ m => by show List.length m ≤ _; omega,
    fun m => by show List.length m ≤ _; omega⟩

example : ReadsBack exCrypto ⟨0, []⟩ .both (some ⟨true, some .master⟩) (List.replicate 24 7) [1, 2, 3] :=
  C45_encrypted_read_back exCrypto_lawful _ (Nat.pow_pos (by decide)) .both ⟨true, some .master⟩ trivial rfl _ _
    (List.length_replicate ..) (by simp)

/-- A document of 28 zero bytes. -/
def exZeros : Payload := ⟨.none, 0, [], []⟩

theorem exZeros_bytes : exZeros.toVec = List.replicate 28 0 := by decide

theorem exZeros_valid : exZeros.Valid :=
  ⟨Nat.pow_pos (by decide), Nat.pow_pos (by decide), Nat.pow_pos (by decide), by simp [exZeros]⟩

/-- 28 zero bytes are a serialized `VaultPayload` with `KeyId::None`: reading them panics. -/
example (ks : Keys) : load exCrypto ks .both (some ⟨true, none⟩) (List.replicate 28 0) = .panic := by
  have h := (C45_violated_panic_on_read exCrypto ks [] [] exZeros exZeros_valid
    (.inl (by simp [exZeros])) (by rw [exZeros_bytes]; simp)).2
  rwa [List.append_nil, exZeros_bytes] at h

/-- The document contents `trv\0hello` lose their first four bytes. -/
example (ks : Keys) : load exCrypto ks .both (some ⟨true, none⟩) ([0x74, 0x72, 0x76, 0] ++ [104, 101, 108, 108, 111])
    = .ok [104, 101, 108, 108, 111] :=
  (C45_violated_trv_prefix exCrypto ks .both (by decide) [] _ 0 (by decide) (by decide) (by simp)).2.1

example : ¬ LooksWrapped .compressionOnly [1, 2, 3] := by
  rintro (⟨_, h, r, e⟩ | ⟨h, _⟩)
  · simp at e
  · exact h rfl
end Example

end Bonsai.Vault
