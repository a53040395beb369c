import Verif.Files.C52c
import Verif.Views.C35

/-!
# Files: creating and deleting under concurrent use and crashes (model)

`create` and `delete` are two transactions each, with other clients' transactions in between, and a crash or an
error may end them after the first.
-/
set_option linter.unusedSimpArgs false
set_option linter.unusedSectionVars false

namespace Bonsai.Files
open Bonsai Bonsai.Names Bonsai.Store Bonsai.Query

/-- `self.doc.delete(&self.database.0)` of `File::delete`, direct.rs:177: one transaction deleting the document
with the header the handle has. -/
def deleteDoc (s : Schema) (cfg : Cfg) (h : Header) (tid : Nat) (db : Db) : Except Err Unit × Db :=
  match applyToRoots s db tid [⟨cfg.files, .delete h⟩] with
  | (.error e, db) => (.error e, db)
  | (.ok _, db) => (.ok (), db)

/-- `File::delete`, direct.rs:175-179, by a single client: the view of blocks was read as `es`. -/
def deleteFile (s : Schema) (cfg : Cfg) (es : OMap ViewEntry) (h : Header) (tid tid' : Nat) (db : Db) :
    Except Err Unit × Db :=
  match deleteBlocks s cfg es (fromBE h.id) tid db with
  | (.error e, db) => (.error e, db)
  | (.ok _, db) => deleteDoc s cfg h tid' db

/-- Where a client is in `create` (file.rs:48-77) or `delete` (direct.rs:175-179). -/
inductive Phase where
  | idle
  /-- The document of the file was inserted, the data comes next. -/
  | creating (h : Header) (data : Bytes)
  /-- The view of blocks was read, the blocks are deleted next. -/
  | deleting (h : Header) (es : OMap ViewEntry)
  /-- The blocks were deleted, the document comes next. -/
  | emptied (h : Header)

/-- A database and its clients. -/
structure FSys where
  db : Db
  clients : Nat → Phase

/-- A client's phase changes. -/
def FSys.put (σ : FSys) (c : Nat) (p : Phase) (db : Db) : FSys :=
  ⟨db, fun c' => if c' = c then p else σ.clients c'⟩

/-- A client is deleting the file. -/
def Deleting (σ : FSys) (fid : Nat) : Prop :=
  ∃ c h, fromBE h.id = fid ∧ ((∃ es, σ.clients c = .deleting h es) ∨ σ.clients c = .emptied h)

/-- What happens in a step: data is appended to a file, or something else. -/
inductive Label where
  | appends (fid : Nat)
  | quiet
  deriving DecidableEq

/-- One step of one client.  `S` holds of the contents of the blocks that are written; it serves to state that
no two of them have the same digest. -/
inductive FStep (s : Schema) (cfg : Cfg) (kf : FileCodec) (kb : Codec) (S : Bytes → Prop) :
    FSys → Label → FSys → Prop
  /-- The first transaction of `create`, file.rs:55-74. -/
  | push {σ c b data md now f tid h db'} (hc : σ.clients c = .idle) (hn : newFile b now md = .ok f)
      (hp : pushFile s cfg kf f tid σ.db = (.ok h, db')) : FStep s cfg kf kb S σ .quiet (σ.put c (.creating h data) db')
  /-- It fails. -/
  | pushFails {σ f tid e db'} (hp : pushFile s cfg kf f tid σ.db = (.error e, db')) :
      FStep s cfg kf kb S σ .quiet { σ with db := db' }
  /-- The second transaction of `create`, file.rs:75: it succeeds or fails. -/
  | fill {σ c h data now tid r db'} (hc : σ.clients c = .creating h data)
      (hS : ∀ x ∈ chunks cfg.size data, S (blockContents x (fromBE h.id) now))
      (ha : append s cfg data (fromBE h.id) now tid σ.db = (r, db')) :
      FStep s cfg kf kb S σ (.appends (fromBE h.id)) (σ.put c .idle db')
  /-- `append`, direct.rs:248-250. -/
  | append {σ fid data now tid r db'} (hf : fid < 2 ^ 32)
      (hS : ∀ x ∈ chunks cfg.size data, S (blockContents x fid now))
      (ha : append s cfg data fid now tid σ.db = (r, db')) : FStep s cfg kf kb S σ (.appends fid) { σ with db := db' }
  /-- `truncate`, with a list of blocks that may be out of date. -/
  | truncate {σ blocks n from_ tid r db'} (ht : truncate s cfg blocks n from_ tid σ.db = (r, db')) :
      FStep s cfg kf kb S σ .quiet { σ with db := db' }
  /-- `move_to`, `rename`, `update_metadata`: the document is stored again. -/
  | store {σ h f tid r db'} (hp : storeFile s cfg kf h f tid σ.db = (r, db')) :
      FStep s cfg kf kb S σ .quiet { σ with db := db' }
  /-- `delete` reads the view of blocks.  The handle's id is a `u32`. -/
  | startDelete {σ c h es} (hc : σ.clients c = .idle) (hid : h.id.length = 4)
      (he : Current (byFile cfg kb) es (σ.db.trees.docs cfg.blocks)) :
      FStep s cfg kf kb S σ .quiet (σ.put c (.deleting h es) σ.db)
  /-- The first transaction of `delete`, direct.rs:176. -/
  | deleteBlocks {σ c h es tid n db'} (hc : σ.clients c = .deleting h es)
      (hd : deleteBlocks s cfg es (fromBE h.id) tid σ.db = (.ok n, db')) :
      FStep s cfg kf kb S σ .quiet (σ.put c (.emptied h) db')
  /-- It fails. -/
  | deleteBlocksFails {σ c h es tid e db'} (hc : σ.clients c = .deleting h es)
      (hd : Files.deleteBlocks s cfg es (fromBE h.id) tid σ.db = (.error e, db')) :
      FStep s cfg kf kb S σ .quiet (σ.put c .idle db')
  /-- The second transaction of `delete`, direct.rs:177: it succeeds or fails. -/
  | deleteDoc {σ c h tid r db'} (hc : σ.clients c = .emptied h) (hd : deleteDoc s cfg h tid σ.db = (r, db')) :
      FStep s cfg kf kb S σ .quiet (σ.put c .idle db')
  /-- Transactions on other collections. -/
  | other {σ tx tid} (h1 : ∀ op ∈ tx, cfg.files ≠ op.collection) (h2 : ∀ op ∈ tx, cfg.blocks ≠ op.collection) :
      FStep s cfg kf kb S σ .quiet { σ with db := (applyToRoots s σ.db tid tx).2 }
  /-- A client gives up (an error, a cancelled future). -/
  | abandon {σ} (c : Nat) : FStep s cfg kf kb S σ .quiet (σ.put c .idle σ.db)
  /-- The process is killed between transactions: the committed ones stay. -/
  | crash {σ} : FStep s cfg kf kb S σ .quiet ⟨σ.db, fun _ => .idle⟩

/-- Executions in which every step satisfies `P` (of the state before and the label). -/
inductive FExec (s : Schema) (cfg : Cfg) (kf : FileCodec) (kb : Codec) (S : Bytes → Prop) (P : FSys → Label → Prop) :
    FSys → FSys → Prop
  | refl (σ) : FExec s cfg kf kb S P σ σ
  | step {σ σ₁ σ₂ l} (h : FExec s cfg kf kb S P σ σ₁) (hs : FStep s cfg kf kb S σ₁ l σ₂) (hp : P σ₁ l) :
      FExec s cfg kf kb S P σ σ₂

/-- Nobody has a file or a block, nobody is doing anything. -/
def FStart (cfg : Cfg) (σ : FSys) : Prop :=
  (∀ id, (σ.db.trees.docs cfg.files).get id = none) ∧ (∀ id, (σ.db.trees.docs cfg.blocks).get id = none) ∧
    ∀ c, σ.clients c = .idle

/-- The restriction under which the code keeps the property: nothing is appended to a file while it is being
deleted. -/
def Calm (σ : FSys) : Label → Prop
  | .appends fid => ¬ Deleting σ fid
  | .quiet => True

/-- Any schedule. -/
def Always (_ : FSys) (_ : Label) : Prop := True

end Bonsai.Files
