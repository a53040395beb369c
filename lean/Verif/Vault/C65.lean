import Verif.Vault.C45

/-!
# C65: compaction keeps what is stored, and keeps it encrypted

`crates/bonsaidb-local/src/tasks/compactor.rs`, `storage.rs:641-669`, `database.rs:835-897`.

`Tree::compact` is nebari's (external): it copies every live chunk of the tree into a new file, reading
and writing it through the vault of the tree handle it is called on.  The compactor obtains that handle
with `roots().tree(R::tree(name))`, *without* the vault that every other access to a collection's trees
sets (`collection_tree`), so nebari falls back to the vault of the whole storage.
-/
set_option linter.unusedSimpArgs false
set_option linter.unusedVariables false

namespace Bonsai.Vault

variable {c : Crypto}

/-- The vault of the tree handle that is compacted: `compact_tree`, compactor.rs:136-143, opens the
tree without one, so it is the storage's, storage.rs:653-656.  (The arguments are those of
`readerVault`.) -/
def compactVault (_collectionKey _defaultKey : Option KeyId) (storage : Option TreeVault) :
    Option TreeVault := storage

/-- One chunk copied by a compaction: read and written through the same vault (nebari, external). -/
def compactChunk (c : Crypto) (ks : Keys) (b : Build) (t : Option TreeVault) (nonce stored : Bytes) :
    Res Bytes :=
  (load c ks b t stored).bind (store c ks b t nonce)

/-- What the configuration of a storage says, config.rs:53-60, storage.rs:309-320: the key of the
collection, the default key, whether compression is on, and the features compiled in. -/
structure Config where
  build : Build
  collectionKey : Option KeyId
  defaultKey : Option KeyId
  compression : Bool

/-- The storage's vault, storage.rs:309-320. -/
def Config.storage (g : Config) : Option TreeVault := newIfNeeded g.defaultKey g.compression

/-- A configuration of a build with the encryption feature, which only knows the master key. -/
structure Config.Ok (g : Config) : Prop where
  encryption : g.build ≠ .compressionOnly
  compression : g.build = .encryptionOnly → g.compression = false
  collection : ∀ k, g.collectionKey = some k → k = .master
  default : ∀ k, g.defaultKey = some k → k = .master

/-- The payload is stored, the chunk is compacted any number of times (each time with fresh nonces),
and the result of the last compaction is on disk. -/
inductive Stored (c : Crypto) (ks : Keys) (g : Config) (p : Bytes) : Bytes → Prop where
  | written (nonce stored : Bytes) (hn : nonce.length = 24)
      (h : store c ks g.build (writerVault g.collectionKey g.defaultKey g.storage) nonce p = .ok stored) :
      Stored c ks g p stored
  | compacted (old nonce stored : Bytes) (ho : Stored c ks g p old) (hn : nonce.length = 24)
      (h : compactChunk c ks g.build (compactVault g.collectionKey g.defaultKey g.storage) nonce old
        = .ok stored) :
      Stored c ks g p stored

/-! ## Specification -/

/-- The bytes on disk contain the payload only through the cipher (as in C45): a header, the box of the
payload or of the compressed payload, the nonce. -/
def Sealed (c : Crypto) (ks : Keys) (p stored : Bytes) : Prop :=
  ∃ (nonce pre x post : Bytes), (x = p ∨ x = compressPrepend c p) ∧ pre.length ≤ 24 ∧
    post = toLE 8 nonce.length ++ nonce ∧ stored = pre ++ c.closeBox ks.key nonce x ++ post

/-! ## Proofs -/

theorem config_storage_key {g : Config} (hg : g.Ok) (hd : g.defaultKey ≠ none) :
    ∃ t, g.storage = some t ∧ t.key = some .master ∧ t.compression = g.compression ∧ t.fits g.build ∧
      writerVault g.collectionKey g.defaultKey g.storage = some t ∧
      readerVault g.collectionKey g.defaultKey g.storage = some t := by
  obtain ⟨b, ck, dk, comp⟩ := g
  obtain ⟨h1, h2, h3, h4⟩ := hg
  simp only at h1 h2 h3 h4 hd
  cases dk with
  | none => exact absurd rfl hd
  | some k =>
    have := h4 k rfl
    subst this
    refine ⟨⟨comp, some .master⟩, ?_, rfl, rfl, ?_, ?_, ?_⟩
    · cases comp <;> simp [Config.storage, newIfNeeded]
    · cases b with
      | both => trivial
      | encryptionOnly => exact h2 rfl
      | compressionOnly => exact absurd rfl h1
    · cases ck with
      | none => cases comp <;> simp [Config.storage, newIfNeeded, writerVault]
      | some k =>
        have := h3 k rfl
        subst this
        cases comp <;> simp [Config.storage, newIfNeeded, writerVault]
    · cases ck with
      | none => cases comp <;> simp [Config.storage, newIfNeeded, readerVault]
      | some k =>
        have := h3 k rfl
        subst this
        cases comp <;> simp [Config.storage, newIfNeeded, readerVault]

theorem sealed_of_store {ks : Keys} {b : Build} {t : TreeVault} (hb : t.fits b)
    (hk : t.key = some .master) {nonce p stored : Bytes}
    (h : store c ks b (some t) nonce p = .ok stored) : Sealed c ks p stored := by
  obtain ⟨pre, x, post, hx, hs, hl, hp, _⟩ := C45_stored_through_the_cipher c ks b t hb hk nonce p
  rw [hs] at h
  injection h with h
  exact ⟨nonce, pre, x, post, hx, hl, hp, h.symm⟩

/-- **C65** (partial): in a storage with a default encryption key, a chunk of any collection — with a
key of its own or not — that was written and then compacted any number of times is still encrypted and
read back unchanged, and the next compaction succeeds.  (Missing: storages without a default key whose
collections have one, see `C65_violated_compaction_decrypts` and `C65_violated_compaction_reads_boxes`.) -/
theorem C65_compaction_keeps_data_encrypted_partial (hc : LawfulCrypto c) (ks : Keys)
    (hks : ks.current < 2 ^ 32) (g : Config) (hg : g.Ok) (hd : g.defaultKey ≠ none) (p : Bytes)
    (hp : p.length < 2 ^ 32) (stored : Bytes) (h : Stored c ks g p stored) :
    Sealed c ks p stored ∧
      load c ks g.build (readerVault g.collectionKey g.defaultKey g.storage) stored = .ok p ∧
      ∀ nonce, ∃ stored',
        compactChunk c ks g.build (compactVault g.collectionKey g.defaultKey g.storage) nonce stored
          = .ok stored' := by
  obtain ⟨t, h1, h2, h3, h4, h5, h6⟩ := config_storage_key hg hd
  have base : ∀ nonce stored, nonce.length = 24 → store c ks g.build (some t) nonce p = .ok stored →
      Sealed c ks p stored ∧ load c ks g.build (some t) stored = .ok p := by
    intro nonce stored hn hs
    refine ⟨sealed_of_store h4 h2 hs, ?_⟩
    obtain ⟨s, hs', hl⟩ := C45_encrypted_read_back hc ks hks g.build t h4 h2 nonce p hn hp
    rw [hs] at hs'
    injection hs' with hs'
    rw [hs']
    exact hl
  have main : Sealed c ks p stored ∧ load c ks g.build (some t) stored = .ok p := by
    induction h with
    | written nonce stored hn h => rw [h5] at h; exact base nonce stored hn h
    | compacted old nonce stored ho hn h ih =>
      simp only [compactChunk, compactVault, h1, ih.2, Res.bind_ok] at h
      exact base nonce stored hn h
  refine ⟨main.1, by rw [h6]; exact main.2, fun nonce => ?_⟩
  obtain ⟨_, x, _, _, hs, _⟩ := C45_stored_through_the_cipher c ks g.build t h4 h2 nonce p
  exact ⟨_, by simp only [compactChunk, compactVault, h1, main.2, Res.bind_ok]; exact hs⟩

/-- **C65**: without any key the vault is the same for everyone: the compacted chunk is exactly what
writing the payload stores, and is read back unchanged (if the payload does not look like an envelope,
C45). -/
theorem C65_compaction_keeps_plain_data (hc : LawfulCrypto c) (ks : Keys) (g : Config) (hg : g.Ok)
    (hk : g.collectionKey = none) (hd : g.defaultKey = none) (p : Bytes) (hp : p.length < 2 ^ 32)
    (hw : ¬ LooksWrapped g.build p) (stored : Bytes) (h : Stored c ks g p stored) :
    (∀ nonce, store c ks g.build g.storage nonce p = .ok stored) ∧
      load c ks g.build (readerVault g.collectionKey g.defaultKey g.storage) stored = .ok p ∧
      ∀ nonce, compactChunk c ks g.build (compactVault g.collectionKey g.defaultKey g.storage) nonce stored
          = .ok stored := by
  have hwv : writerVault g.collectionKey g.defaultKey g.storage = g.storage := by
    simp [writerVault, hk, hd]
  have hrv : readerVault g.collectionKey g.defaultKey g.storage = g.storage := by
    simp only [readerVault, hk, hd, Option.or_none]
    cases hs : g.storage with
    | some t => rfl
    | none => simp [newIfNeeded]
  have indep : ∀ nonce nonce', store c ks g.build g.storage nonce p =
      store c ks g.build g.storage nonce' p := by
    intro nonce nonce'
    cases hcomp : g.compression with
    | false => simp [Config.storage, newIfNeeded, hd, hcomp, store]
    | true =>
      have : g.storage = some ⟨true, none⟩ := by simp [Config.storage, newIfNeeded, hd, hcomp]
      rw [this]
      cases hb : g.build <;> simp [store, TreeVault.encrypt]
  have rb : ∀ nonce stored, store c ks g.build g.storage nonce p = .ok stored →
      load c ks g.build g.storage stored = .ok p := by
    intro nonce stored hs
    cases hcomp : g.compression with
    | false =>
      have : g.storage = none := by simp [Config.storage, newIfNeeded, hd, hcomp]
      rw [this] at hs ⊢
      simp only [store, load] at hs ⊢
      injection hs with hs
      rw [hs]
    | true =>
      have hst : g.storage = some ⟨true, none⟩ := by simp [Config.storage, newIfNeeded, hd, hcomp]
      have hfit : (⟨true, none⟩ : TreeVault).fits g.build := by
        cases hb : g.build with
        | both => trivial
        | encryptionOnly => have := hg.compression hb; rw [hcomp] at this; cases this
        | compressionOnly => exact absurd hb hg.encryption
      rw [hst] at hs ⊢
      by_cases hl : 128 ≤ p.length
      · obtain ⟨s, hs', hr⟩ := C45_compressed_read_back hc ks g.build ⟨true, none⟩ hfit rfl rfl nonce p hl hp
        rw [hs] at hs'
        injection hs' with hs'
        rw [hs']; exact hr
      · obtain ⟨s, hs', hr⟩ := C45_plain_read_back_partial c ks g.build ⟨true, none⟩ rfl
          nonce p (.inl (by omega)) hw
        rw [hs] at hs'
        injection hs' with hs'
        rw [hs']; exact hr
  have main : (∀ nonce, store c ks g.build g.storage nonce p = .ok stored) := by
    induction h with
    | written nonce stored hn h => rw [hwv] at h; intro n; rw [indep n nonce]; exact h
    | compacted old nonce stored ho hn h ih =>
      simp only [compactChunk, compactVault, rb nonce old (ih nonce), Res.bind_ok] at h
      intro n; rw [indep n nonce]; exact h
  refine ⟨main, by rw [hrv]; exact rb [] stored (main []), fun nonce => ?_⟩
  simp only [compactChunk, compactVault, rb nonce stored (main nonce), Res.bind_ok]
  exact main nonce

/-- **C65 is violated** by a collection with a key of its own in a storage with compression and no
default key: compacting it once writes every chunk as if it had no key — payloads of less than 128 bytes
in the clear, longer ones merely compressed. -/
theorem C65_violated_compaction_decrypts (hc : LawfulCrypto c) (ks : Keys) (hks : ks.current < 2 ^ 32)
    (p nonce nonce' : Bytes) (hn : nonce.length = 24) (hp : p.length < 2 ^ 32) :
    let g : Config := ⟨.both, some .master, none, true⟩
    ∃ stored, store c ks g.build (writerVault g.collectionKey g.defaultKey g.storage) nonce p = .ok stored ∧
      Sealed c ks p stored ∧
      compactChunk c ks g.build (compactVault g.collectionKey g.defaultKey g.storage) nonce' stored =
        .ok (if 128 ≤ p.length then [0x74, 0x72, 0x76, 1] ++ compressPrepend c p else p) := by
  intro g
  have hv : writerVault g.collectionKey g.defaultKey g.storage = some ⟨true, some .master⟩ := by
    simp [g, Config.storage, newIfNeeded, writerVault]
  obtain ⟨s, hs, hl⟩ := C45_encrypted_read_back hc ks hks .both ⟨true, some .master⟩ trivial rfl nonce p hn hp
  refine ⟨s, by rw [hv]; exact hs, sealed_of_store (b := .both) trivial rfl hs, ?_⟩
  have hst : compactVault g.collectionKey g.defaultKey g.storage = some ⟨true, none⟩ := by
    simp [g, compactVault, Config.storage, newIfNeeded]
  have hl' : load c ks .both (some ⟨true, none⟩) s = .ok p := hl
  simp only [compactChunk, hst]
  show Res.bind (load c ks .both (some ⟨true, none⟩) s) _ = _
  rw [hl', Res.bind_ok]
  by_cases h : 128 ≤ p.length
  · rw [if_pos h]
    simp [g, store, TreeVault.encrypt, TreeVault.header, magic, h]
  · rw [if_neg h]
    simp [g, store, TreeVault.encrypt, TreeVault.header, h]

/-- … and the payload of less than 128 bytes is then on disk, byte for byte. -/
theorem C65_violated_plaintext_on_disk (hc : LawfulCrypto c) (ks : Keys) (hks : ks.current < 2 ^ 32)
    (p : Bytes) (hp : p.length < 128) :
    Stored c ks ⟨.both, some .master, none, true⟩ p p := by
  have hn : (List.replicate 24 (0 : UInt8)).length = 24 := by simp
  obtain ⟨s, hs, _, hcmp⟩ := C65_violated_compaction_decrypts hc ks hks p _ (List.replicate 24 0) hn
    (by omega)
  rw [if_neg (by omega)] at hcmp
  exact .compacted s _ p (.written _ s hn hs) hn hcmp

/-- **C65 is violated** also without compression: the storage then has no vault at all, and a compaction
of the collection takes the encrypted chunk itself — longer than the payload by more than 20 bytes if
the cipher does not shorten — for the contents of the chunk. -/
theorem C65_violated_compaction_reads_boxes (c : Crypto) (ks : Keys) (b : Build)
    (hb : b ≠ .compressionOnly) (p nonce : Bytes)
    (hlen : p.length ≤ (c.closeBox ks.key nonce p).length) :
    let g : Config := ⟨b, some .master, none, false⟩
    ∃ stored, store c ks b (writerVault g.collectionKey g.defaultKey g.storage) nonce p = .ok stored ∧
      load c ks b (compactVault g.collectionKey g.defaultKey g.storage) stored = .ok stored ∧
      p.length + 20 < stored.length := by
  intro g
  have hv : writerVault g.collectionKey g.defaultKey g.storage = some ⟨false, some .master⟩ := by
    simp [g, Config.storage, newIfNeeded, writerVault]
  have hst : compactVault g.collectionKey g.defaultKey g.storage = none := by
    simp [g, compactVault, Config.storage, newIfNeeded]
  rw [hv, hst]
  cases b with
  | compressionOnly => exact absurd rfl hb
  | both =>
    refine ⟨_, encrypt_both_plain c ks false nonce p (by simp), rfl, ?_⟩
    simp only [List.length_append, Payload.toVec, putKeyId, putBytes, toLE_length, magic,
      List.length_cons, List.length_nil]
    omega
  | encryptionOnly =>
    refine ⟨_, encrypt_encryptionOnly c ks false nonce p, rfl, ?_⟩
    simp only [List.length_append, Payload.toVec, putKeyId, putBytes, toLE_length, magic,
      List.length_cons, List.length_nil]
    omega

/-! ## Non-vacuity -/
section Example

/-- A storage with a default key and a collection with its own: a chunk exists on disk, compacted. -/
def exConfig : Config := ⟨.both, some .master, some .master, true⟩

theorem exConfig_ok : exConfig.Ok :=
  ⟨by decide, by decide, by intro k h; simp [exConfig] at h; exact h.symm,
    by intro k h; simp [exConfig] at h; exact h.symm⟩

example : ∃ stored, Stored exCrypto ⟨0, [1]⟩ exConfig [7, 8, 9] stored ∧ exConfig.defaultKey ≠ none := by
  have hn : (List.replicate 24 (0 : UInt8)).length = 24 := by simp
  obtain ⟨t, h1, h2, _, h4, h5, _⟩ := config_storage_key exConfig_ok (by decide)
  obtain ⟨s, hs, _⟩ := C45_encrypted_read_back exCrypto_lawful ⟨0, [1]⟩ (by decide) exConfig.build t h4 h2
    (List.replicate 24 0) [7, 8, 9] hn (by decide)
  exact ⟨s, .written _ s hn (by rw [h5]; exact hs), by decide⟩

/-- A storage without keys. -/
example : Stored exCrypto ⟨0, [1]⟩ ⟨.both, none, none, true⟩ [7, 8, 9] [7, 8, 9] :=
  .written (List.replicate 24 0) _ (by simp) rfl

end Example

end Bonsai.Vault
