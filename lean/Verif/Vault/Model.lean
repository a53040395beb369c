import Verif.Key.Lemmas

/-!
# C45: compression and encryption at rest (model)

`crates/bonsaidb-local/src/storage.rs` (`TreeVault`), `crates/bonsaidb-local/src/vault.rs`
(`Vault::encrypt_payload`, `decrypt_payload`, `VaultPayload`), `database.rs` (`collection_tree`).

The cipher (XChaCha20Poly1305) and LZ4 are external: `Crypto` names them and `LawfulCrypto` states
what is assumed of them.  The envelope that BonsaiDb puts around their output is modelled byte for
byte, including bincode's encoding of `VaultPayload`.
-/
set_option linter.unusedSimpArgs false
set_option linter.unusedSectionVars false

namespace Bonsai.Vault

/-- `to_le_bytes` (std). -/
def toLE (w n : Nat) : Bytes := (toBE w n).reverse

/-- `from_le_bytes` (std). -/
def fromLE (b : Bytes) : Nat := fromBE b.reverse

/-- The external algorithms: `chacha20poly1305::XChaCha20Poly1305::encrypt`/`decrypt`,
`lz4_flex::block::compress`/`decompress` (the latter is given the expected size). -/
structure Crypto where
  closeBox : (key nonce msg : Bytes) → Bytes
  openBox : (key nonce box : Bytes) → Option Bytes
  compress : Bytes → Bytes
  decompress : Nat → Bytes → Option Bytes

/-- What is assumed of them: decryption with the same key and a 24-byte nonce and decompression with
the right size give back the input, and outputs are at most twice as long, plus 32 bytes. -/
structure LawfulCrypto (c : Crypto) : Prop where
  open_close : ∀ key nonce msg, nonce.length = 24 → c.openBox key nonce (c.closeBox key nonce msg) = some msg
  decompress_compress : ∀ msg, c.decompress msg.length (c.compress msg) = some msg
  close_length : ∀ key nonce msg, (c.closeBox key nonce msg).length ≤ 2 * msg.length + 32
  compress_length : ∀ msg, (c.compress msg).length ≤ 2 * msg.length + 32

/-- `KeyId`, crates/bonsaidb-core/src/document.rs:246-253. -/
inductive KeyId where
  | none
  | master
  | id (name : Bytes)
  deriving DecidableEq

/-- `VaultPayload`, vault.rs:601-609 (`Encryption` has one variant). -/
structure Payload where
  keyId : KeyId
  keyVersion : Nat
  payload : Bytes
  nonce : Bytes
  deriving DecidableEq

/-- bincode (fixed-width little-endian integers) of a byte sequence or string: its length as `u64`,
then the bytes. -/
def putBytes (b : Bytes) : Bytes := toLE 8 b.length ++ b

/-- bincode of `KeyId`: the variant as `u32`, then its field. -/
def putKeyId : KeyId → Bytes
  | .none => toLE 4 0
  | .master => toLE 4 1
  | .id name => toLE 4 2 ++ putBytes name

/-- `VaultPayload::to_vec`, vault.rs:618-620: bincode of the fields in order. -/
def Payload.toVec (p : Payload) : Bytes :=
  putKeyId p.keyId ++ toLE 4 p.keyVersion ++ toLE 4 0 ++ putBytes p.payload ++ putBytes p.nonce

/-- bincode reads a fixed-width integer. -/
def getLE (w : Nat) (b : Bytes) : Option (Nat × Bytes) :=
  if w ≤ b.length then some (fromLE (b.take w), b.drop w) else .none

/-- bincode reads a byte sequence. -/
def getBytes (b : Bytes) : Option (Bytes × Bytes) :=
  match getLE 8 b with
  | some (n, b) => if n ≤ b.length then some (b.take n, b.drop n) else .none
  | .none => .none

/-- The bytes are UTF-8 (std's `str::from_utf8`). -/
@[irreducible] def isUtf8 (s : Bytes) : Bool := (String.fromUTF8? ⟨s.toArray⟩).isSome

/-- bincode reads a `KeyId`; a string must be UTF-8. -/
def getKeyId (b : Bytes) : Option (KeyId × Bytes) :=
  (getLE 4 b).bind fun x =>
    if x.1 = 0 then some (.none, x.2)
    else if x.1 = 1 then some (.master, x.2)
    else if x.1 = 2 then
      (getBytes x.2).bind fun y =>
        if isUtf8 y.1 then some (.id y.1, y.2) else .none
    else .none

/-- `VaultPayload::from_slice`, vault.rs:612-616: `bincode::deserialize`, which allows trailing
bytes. -/
def parse (b : Bytes) : Option Payload :=
  (getKeyId b).bind fun k =>
    (getLE 4 k.2).bind fun v =>
      (getLE 4 v.2).bind fun e =>
        if e.1 = 0 then
          (getBytes e.2).bind fun p => (getBytes p.2).bind fun n => some ⟨k.1, v.1, p.1, n.1⟩
        else .none

/-- `Vault`, vault.rs:135-140 (`master_keys`, `current_master_key_id`). -/
structure Keys where
  current : Nat
  key : Bytes

/-- `Vault::encrypt_payload`, vault.rs:330-350 without a permission check (`TreeVault` passes `None`):
`todo!()` for named keys, `unreachable!()` for `KeyId::None`.  The nonce is 24 random bytes
(vault.rs:422-424). -/
def encryptPayload (c : Crypto) (ks : Keys) (k : KeyId) (nonce : Bytes) (payload : Bytes) : Res Bytes :=
  match k with
  | .master => .ok (Payload.toVec ⟨.master, ks.current, c.closeBox ks.key nonce payload, nonce⟩)
  | .id _ => .panic
  | .none => .panic

/-- `Vault::decrypt_payload` and `Vault::decrypt`, vault.rs:368-387, `EncryptionKey::decrypt_payload`,
vault.rs:452-466: bytes that are not a `VaultPayload` are returned as they are;
`GenericArray::from_slice` panics unless the nonce has 24 bytes. -/
def decryptPayload (c : Crypto) (ks : Keys) (b : Bytes) : Res Bytes :=
  match parse b with
  | some p =>
    match p.keyId with
    | .master =>
      if p.nonce.length = 24 then Res.ofOption (c.openBox ks.key p.nonce p.payload) else .panic
    | .id _ => .panic
    | .none => .panic
  | .none => .ok b

/-- The two optional Cargo features, at least one of which is enabled. -/
inductive Build where
  | both
  | compressionOnly
  | encryptionOnly
  deriving DecidableEq

/-- `TreeVault`, storage.rs:1531-1538. -/
structure TreeVault where
  compression : Bool
  key : Option KeyId
  deriving DecidableEq

/-- A `TreeVault` that this build can have: the fields of disabled features do not exist. -/
def TreeVault.fits (t : TreeVault) : Build → Prop
  | .both => True
  | .compressionOnly => t.key = .none
  | .encryptionOnly => t.compression = false

/-- `TreeVault::new_if_needed`, storage.rs:1543-1556, 1683-1687, 1739-1744. -/
def newIfNeeded (key : Option KeyId) (compression : Bool) : Option TreeVault :=
  if key = .none ∧ compression = false then .none else some ⟨compression, key⟩

/-- `[b't', b'r', b'v']`. -/
def magic : Bytes := [0x74, 0x72, 0x76]

/-- `lz4_flex::block::compress_prepend_size`, storage.rs:1582; storage.rs:1697-1711 writes the same
bytes.  Lengths of 2^32 or more are outside the model (nebari's blocks are smaller). -/
def compressPrepend (c : Crypto) (payload : Bytes) : Bytes :=
  toLE 4 payload.length ++ c.compress payload

/-- `lz4_flex::block::decompress_size_prepended`. -/
def decompressPrepended (c : Crypto) (b : Bytes) : Res Bytes :=
  match getLE 4 b with
  | some (n, b) => Res.ofOption (c.decompress n b)
  | .none => .err

/-- `TreeVault::header`, storage.rs:1558-1569. -/
def TreeVault.header (t : TreeVault) (compressed : Bool) : UInt8 :=
  (if t.key.isSome then 0x80 else 0) ||| (if compressed ∧ t.compression then 1 else 0)

/-- `Vault::encrypt for TreeVault`: storage.rs:1575-1600 (both features), 1694-1716 (compression
only), 1760-1767 (encryption only). -/
def TreeVault.encrypt (c : Crypto) (ks : Keys) (b : Build) (t : TreeVault) (nonce payload : Bytes) :
    Res Bytes :=
  match b with
  | .both =>
    let includes := decide (128 ≤ payload.length) && t.compression
    let compressed := if includes then compressPrepend c payload else payload
    let complete := match t.key with
      | some k => encryptPayload c ks k nonce compressed
      | .none => .ok compressed
    complete.map fun out =>
      let h := t.header includes
      if h ≠ 0 then magic ++ [h] ++ out else out
  | .compressionOnly =>
    if 128 ≤ payload.length ∧ t.compression then .ok (magic ++ [1] ++ compressPrepend c payload)
    else .ok payload
  | .encryptionOnly =>
    match t.key with
    | some k => encryptPayload c ks k nonce payload
    | .none => .ok payload

/-- `Vault::decrypt for TreeVault`: storage.rs:1602-1622 (both features), 1718-1735 (compression
only), 1769-1771 (encryption only).  It does not look at the configuration. -/
def decrypt (c : Crypto) (ks : Keys) (b : Build) (stored : Bytes) : Res Bytes :=
  match b with
  | .both =>
    if 4 ≤ stored.length ∧ stored.take 3 = magic then
      let header := stored.getD 3 0
      let payload := stored.drop 4
      let decrypted := if header &&& 0x80 ≠ 0 then decryptPayload c ks payload else .ok payload
      decrypted.bind fun d => if header &&& 0x7f = 1 then decompressPrepended c d else .ok d
    else decryptPayload c ks stored
  | .compressionOnly =>
    if 4 ≤ stored.length ∧ stored.take 3 = magic then
      let header := stored.getD 3 0
      let payload := stored.drop 4
      if header &&& 0x80 ≠ 0 then .err
      else if header &&& 0x7f = 1 then decompressPrepended c payload else .ok payload
    else .ok stored
  | .encryptionOnly => decryptPayload c ks stored

/-- `collection_encryption_key`, database.rs:835-839, and the vault that writers use for a collection's
trees, database.rs:270-293 (with the encryption feature). -/
def writerVault (collectionKey defaultKey : Option KeyId) (storage : Option TreeVault) :
    Option TreeVault :=
  match collectionKey.or defaultKey with
  | some k =>
    match storage with
    | some t => some { t with key := some k }
    | .none => newIfNeeded (some k) false
  | .none => storage

/-- The vault that readers use, `collection_tree`, database.rs:857-895 (with the encryption
feature). -/
def readerVault (collectionKey defaultKey : Option KeyId) (storage : Option TreeVault) :
    Option TreeVault :=
  match collectionKey.or defaultKey, storage with
  | some k, some t => some { t with key := some k }
  | .none, some t => some t
  | key, .none => newIfNeeded key false

/-- `nebari` stores a chunk through the tree's vault, if it has one (external). -/
def store (c : Crypto) (ks : Keys) (b : Build) (t : Option TreeVault) (nonce payload : Bytes) : Res Bytes :=
  match t with
  | some t => t.encrypt c ks b nonce payload
  | .none => .ok payload

/-- `nebari` reads a chunk through the tree's vault, if it has one (external). -/
def load (c : Crypto) (ks : Keys) (b : Build) (t : Option TreeVault) (stored : Bytes) : Res Bytes :=
  match t with
  | some _ => decrypt c ks b stored
  | .none => .ok stored

end Bonsai.Vault
