import Verif.Vault.C57
import Verif.Names.DocId

/-!
# Where vault keys are kept (model)

`LocalVaultKeyStorage`, crates/bonsaidb-local/src/vault.rs:541-599, `S3VaultKeyStorage`,
crates/bonsaidb-keystorage-s3/src/lib.rs:65-216, and `Vault::initialize`, vault.rs:188-324, of several storages that
share them.

A directory is a map from file names to contents, a bucket one from keys to contents.  `bincode` of a `KeyPair` is
external (`Codec`).  An opening is one step: openings of storages that use different places for their keys touch
nothing of each other.
-/
set_option linter.unusedVariables false

namespace Bonsai.Vault

/-- `Display for StorageId`, crates/bonsaidb-local/src/storage.rs:1516-1527: `{:016x}`. -/
def idName (id : Nat) : Bytes := (toBE 8 id).flatMap Bonsai.DocId.hex2

/-- Which key storage: the local directory, or S3 with a path prefix. -/
inductive Kind where
  | dir
  | s3 (pathPrefix : Bytes)
  deriving DecidableEq

/-- A place: in the bucket or in the directory, and the name. -/
abbrev Place := Bool × Bytes

/-- `path_for_id`, lib.rs:141-148. -/
def pathForId (p : Bytes) (id : Nat) : Bytes :=
  (if p ≠ [] ∧ p.getLast? ≠ some 47 then p ++ [47] else p) ++ idName id

/-- Where the key of a storage is: `self.directory.join(server_id.to_string())`, vault.rs:578, 594, or `path_for_id`. -/
def placeOf : Kind → Nat → Place
  | .dir, id => (false, idName id)
  | .s3 p, id => (true, pathForId p id)

/-- Everything kept. -/
abbrev Objs := Place → Option Bytes

/-- One object is now this. -/
def Objs.put (o : Objs) (l : Place) (b : Bytes) : Objs := fun l' => if l' = l then some b else o l'

/-- `bincode` of a `KeyPair`: `KeyPair::to_bytes`, `from_bytes`, vault.rs:93-103. -/
structure Codec (Pair : Type) where
  enc : Pair → Bytes
  dec : Bytes → Option Pair

/-- What is assumed of it: a key pair is read back, and one not written completely is not read. -/
structure LawfulCodec {Pair : Type} (c : Codec Pair) : Prop where
  dec_enc : ∀ p, c.dec (c.enc p) = some p
  incomplete : ∀ p b, b <+: c.enc p → b ≠ c.enc p → c.dec b = none

/-- How `set_vault_key_for` ends. -/
inductive SetOut where
  | ok
  | failed
  | crashed
  deriving DecidableEq

variable {Pair Pub Rand MK Boxed : Type}

/-- `set_vault_key_for`, vault.rs:593-598 and lib.rs:173-186.  If it fails or the process ends in it, nothing may have
happened, or all of it; the local file, created and then written, may hold the beginning of it. -/
def SetVault (c : Codec Pair) (k : Kind) (id : Nat) (key : Pair) (out : SetOut) (o o' : Objs) : Prop :=
  match out with
  | .ok => o' = o.put (placeOf k id) (c.enc key)
  | _ => o' = o ∨ o' = o.put (placeOf k id) (c.enc key) ∨
      (k = .dir ∧ ∃ b, b <+: c.enc key ∧ o' = o.put (placeOf k id) b)

/-- What is made of an object, vault.rs:577-591 and lib.rs:188-215: a missing one is no key, not an error. -/
def readVault (c : Codec Pair) : Option Bytes → Res (Option Pair)
  | none => .ok none
  | some b =>
    match c.dec b with
    | some p => .ok (some p)
    | none => .err

/-- `vault_key_for`: or the file system or the network fails, which is an error. -/
def GetVault (c : Codec Pair) (k : Kind) (id : Nat) (o : Objs) (r : Res (Option Pair)) : Prop :=
  r = .err ∨ r = readVault c (o (placeOf k id))

/-! ## Histories of calls -/

/-- A call, and how it ended. -/
inductive Ev (Pair : Type) where
  | set (k : Kind) (id : Nat) (key : Pair) (out : SetOut)
  | get (k : Kind) (id : Nat) (r : Res (Option Pair))

/-- One call. -/
def Ev.Does (c : Codec Pair) : Ev Pair → Objs → Objs → Prop
  | .set k id key out, o, o' => SetVault c k id key out o o'
  | .get k id r, o, o' => GetVault c k id o r ∧ o' = o

/-- Any number of calls, from any number of processes. -/
inductive Calls (c : Codec Pair) : Objs → List (Ev Pair) → Objs → Prop
  | nil {o : Objs} : Calls c o [] o
  | cons {o o₁ o₂ : Objs} {e : Ev Pair} {es : List (Ev Pair)} : e.Does c o o₁ → Calls c o₁ es o₂ → Calls c o (e :: es) o₂

/-! ## Storages that share a key storage -/

/-- A storage: its id and its key storage. -/
structure Site where
  id : Nat
  kind : Kind

/-- The `master-keys` files of the storages, and the objects. -/
structure Shared where
  files : Nat → Option Bytes
  objs : Objs

/-- The file of one storage is now this. -/
def Shared.write (w : Shared) (i : Nat) (b : Bytes) : Shared :=
  { w with files := fun j => if j = i then some b else w.files j }

/-- `Vault::unseal` once the key storage has answered, vault.rs:273-324. -/
def unsealWith (h : Hpke Pair Pub Rand MK Boxed) (file : Bytes) (r : Res (Option Pair)) : Res MK :=
  match h.parse file with
  | none => .err
  | some box =>
    match r with
    | .ok (some pair) =>
      match h.unwrap pair box with
      | some keys => .ok keys
      | none => .panic
    | .ok none => .err
    | _ => .err

/-- `Vault::initialize` of storage `i`, vault.rs:188-271, with every outcome. -/
inductive OpenSite (h : Hpke Pair Pub Rand MK Boxed) (c : Codec Pair) (sites : Nat → Site) :
    Shared → Nat → Outcome MK → Shared → Prop
  /-- A crash before anything was changed. -/
  | crashEarly {w : Shared} {i : Nat} : OpenSite h c sites w i .crashed w
  /-- `master-keys` exists: nothing is changed. -/
  | existing {w : Shared} {i : Nat} {file : Bytes} {r : Res (Option Pair)} : w.files i = some file →
      GetVault c (sites i).kind (sites i).id w.objs r →
      OpenSite h c sites w i (.returned (unsealWith h file r)) w
  /-- `set_vault_key_for` fails, vault.rs:210-218. -/
  | setFails {w : Shared} {i : Nat} {pair : Pair} {o : Objs} : w.files i = none →
      SetVault c (sites i).kind (sites i).id pair .failed w.objs o →
      OpenSite h c sites w i (.returned .err) { w with objs := o }
  /-- The process ends while it sets the key, or after, before the file is created. -/
  | crashSetting {w : Shared} {i : Nat} {pair : Pair} {o : Objs} {out : SetOut} : w.files i = none →
      SetVault c (sites i).kind (sites i).id pair out w.objs o →
      OpenSite h c sites w i .crashed { w with objs := o }
  /-- The key is not given back, vault.rs:223-229, 266-270. -/
  | notReturned {w : Shared} {i : Nat} {pair : Pair} {o : Objs} {r : Res (Option Pair)} : w.files i = none →
      SetVault c (sites i).kind (sites i).id pair .ok w.objs o → GetVault c (sites i).kind (sites i).id o r →
      (∀ q, r = .ok (some q) → h.pub q ≠ h.pub pair) →
      OpenSite h c sites w i (.returned .err) { w with objs := o }
  /-- Writing the file fails, or the process ends meanwhile: it holds the beginning of its contents,
  vault.rs:255-257. -/
  | writing {w : Shared} {i : Nat} {pair q : Pair} {o : Objs} {keys : MK} {rnd : Rand} {b : Bytes}
      {out : Outcome MK} : w.files i = none →
      SetVault c (sites i).kind (sites i).id pair .ok w.objs o →
      GetVault c (sites i).kind (sites i).id o (.ok (some q)) → h.pub q = h.pub pair →
      b <+: h.wrap (h.pub pair) keys rnd → out = .crashed ∨ out = .returned .err →
      OpenSite h c sites w i out ({ w with objs := o }.write i b)
  /-- Everything succeeds, vault.rs:259-264. -/
  | fresh {w : Shared} {i : Nat} {pair q : Pair} {o : Objs} {keys : MK} {rnd : Rand} : w.files i = none →
      SetVault c (sites i).kind (sites i).id pair .ok w.objs o →
      GetVault c (sites i).kind (sites i).id o (.ok (some q)) → h.pub q = h.pub pair →
      OpenSite h c sites w i (.returned (.ok keys)) ({ w with objs := o }.write i (h.wrap (h.pub pair) keys rnd))

/-- Any number of openings of any of the storages. -/
inductive OpenSites (h : Hpke Pair Pub Rand MK Boxed) (c : Codec Pair) (sites : Nat → Site) :
    Shared → List (Nat × Outcome MK) → Shared → Prop
  | nil {w : Shared} : OpenSites h c sites w [] w
  | snoc {w w' w'' : Shared} {es : List (Nat × Outcome MK)} {i : Nat} {out : Outcome MK} :
      OpenSites h c sites w es w' → OpenSite h c sites w' i out w'' → OpenSites h c sites w (es ++ [(i, out)]) w''

/-! ## Making an `S3VaultKeyStorage` -/

/-- `S3VaultKeyStorage::new`, lib.rs:114-116: `Handle::current()` panics outside a runtime; the runtime made by
`Tokio::default` is for `Default` only. -/
def s3New (current : Option Nat) : Res (Option Nat) :=
  match current with
  | some rt => .ok (some rt)
  | none => .panic

/-- `Default for Tokio`, lib.rs:85-99: the current runtime, or a new one (`none`). -/
def s3Default (current : Option Nat) : Res (Option Nat) := .ok current

/-- The region requests are made in, lib.rs:150-166: `fromEnv` is what the SDK finds; the field is used only with an
endpoint. -/
def s3Region (endpoint : Option Bytes) (region fromEnv : Option Bytes) : Option Bytes :=
  match endpoint with
  | some _ => some ((region.or fromEnv).getD [117, 115, 45, 101, 97, 115, 116, 45, 49])
  | none => fromEnv

end Bonsai.Vault
