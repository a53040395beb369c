import Verif.Time.Lemmas

/-!
# The id and the lock of a storage (model)

`crates/bonsaidb-local/src/storage.rs:372-427, 1774-1796` (`lookup_or_create_id`, `StorageLock`),
`database.rs:1677-1743` (`Context`), `database/keyvalue.rs:767-825` (`background_worker`).

Several openings of one directory, in one process or in several: an opening is known by its number.  The file is
`server-id` or `storage-id`; which of them is settled by which exists and does not change while the other is not
created, so there is one file here.  A lock is held by an opening of the file until it is unlocked or its process ends
(`flock`).  Errors of the file system are not modelled.
-/
set_option linter.unusedVariables false

namespace Bonsai.Lock

open Bonsai.Time

/-- How far an opening is. -/
inductive Stage where
  /-- Before `id_path.exists()`, storage.rs:388, 403. -/
  | check
  /-- The file was there: before `File::open`. -/
  | toOpen
  /-- It was not: before `File::create`. -/
  | toCreate
  /-- Opened, before `lock_exclusive`. -/
  | opened
  /-- Created (or emptied), before what comes next. -/
  | created
  /-- The configured id was written, before `lock_exclusive`, storage.rs:396. -/
  | wrote
  /-- Locked; `fresh` says whether the file was created, that is, whether to write or to read. -/
  | locked (fresh : Bool)
  /-- `Storage::open` goes on with this id. -/
  | running (id : Nat)
  /-- The last handle was dropped; the workers of key-value stores may still be there. -/
  | closing (id : Nat)
  | panicked
  | gone
  deriving DecidableEq

/-- The key-value store of an open database: whether its context is there, whether keys are being persisted, whether
its worker thread is there. -/
structure Ctx where
  kept : Bool
  persisting : Bool
  worker : Bool
  deriving DecidableEq

/-- An opening: the configured id, the random id it would draw, how far it is, and its databases. -/
structure Proc where
  cfg : Option Nat
  draw : Nat
  stage : Stage
  ctxs : List Ctx
  deriving DecidableEq

/-- The file, who holds its lock, and the openings. -/
structure World where
  file : Option (List Char)
  holder : Option Nat
  procs : List Proc
  deriving DecidableEq

/-- `write_all` at the beginning of the file: what was behind stays. -/
def overwrite (new old : List Char) : List Char := new ++ old.drop new.length

/-- The contents, or nothing. -/
def World.contents (w : World) : List Char := w.file.getD []

/-- `existing_id.parse()`, storage.rs:411-414. -/
def readId (s : List Char) : Option Nat := parseUnsigned (2 ^ 64) s

/-- Opening `i` is now `p`. -/
def World.put (w : World) (i : Nat) (p : Proc) : World := { w with procs := w.procs.set i p }

/-- The lock is given up by `i`, if it had it. -/
def World.unlock (w : World) (i : Nat) : World := { w with holder := if w.holder = some i then none else w.holder }

/-- What can happen. -/
inductive Step : World → World → Prop
  /-- `Storage::open` is called. -/
  | start {w : World} (cfg : Option Nat) (draw : Nat) : draw < 2 ^ 64 → (∀ n, cfg = some n → n < 2 ^ 64) →
      Step w { w with procs := w.procs ++ [⟨cfg, draw, .check, []⟩] }
  /-- `id_path.exists()`. -/
  | look {w : World} {i : Nat} {p : Proc} : w.procs[i]? = some p → p.stage = .check →
      Step w (w.put i { p with stage := if w.file.isSome then .toOpen else .toCreate })
  /-- `File::open`. -/
  | openFile {w : World} {i : Nat} {p : Proc} : w.procs[i]? = some p → p.stage = .toOpen →
      Step w (w.put i { p with stage := .opened })
  /-- `File::create`: the file is there and empty. -/
  | create {w : World} {i : Nat} {p : Proc} : w.procs[i]? = some p → p.stage = .toCreate →
      Step w ({ w with file := some [] }.put i { p with stage := .created })
  /-- The configured id is written, without the lock: storage.rs:391-394. -/
  | writeConfigured {w : World} {i : Nat} {p : Proc} {n : Nat} : w.procs[i]? = some p → p.stage = .created →
      p.cfg = some n →
      Step w ({ w with file := some (overwrite (decimal n) w.contents) }.put i { p with stage := .wrote })
  /-- `lock_exclusive` with a configured id: storage.rs:397-398. -/
  | lockConfigured {w : World} {i : Nat} {p : Proc} {n : Nat} : w.procs[i]? = some p →
      p.stage = .opened ∨ p.stage = .wrote → p.cfg = some n → w.holder = none →
      Step w ({ w with holder := some i }.put i { p with stage := .running n })
  /-- `lock_exclusive` otherwise: storage.rs:407, 418. -/
  | lock {w : World} {i : Nat} {p : Proc} : w.procs[i]? = some p → p.stage = .opened ∨ p.stage = .created →
      p.cfg = none → w.holder = none →
      Step w ({ w with holder := some i }.put i { p with stage := .locked (decide (p.stage = Stage.created)) })
  /-- The random id is written: storage.rs:420-422. -/
  | write {w : World} {i : Nat} {p : Proc} : w.procs[i]? = some p → p.stage = .locked true →
      Step w ({ w with file := some (overwrite (decimal p.draw) w.contents) }.put i { p with stage := .running p.draw })
  /-- The id is read: storage.rs:408-414. -/
  | read {w : World} {i : Nat} {p : Proc} {n : Nat} : w.procs[i]? = some p → p.stage = .locked false →
      readId w.contents = some n → Step w (w.put i { p with stage := .running n })
  /-- The contents are no number: `expect`, storage.rs:412-414. -/
  | readPanic {w : World} {i : Nat} {p : Proc} : w.procs[i]? = some p → p.stage = .locked false →
      readId w.contents = none → Step w ((w.unlock i).put i { p with stage := .panicked })
  /-- A database is opened; its worker thread takes a share of the lock: storage.rs:642-667, database.rs:1678-1708. -/
  | openDb {w : World} {i : Nat} {p : Proc} {n : Nat} : w.procs[i]? = some p → p.stage = .running n →
      Step w (w.put i { p with ctxs := p.ctxs ++ [⟨true, false, true⟩] })
  /-- Keys begin to be persisted: by an operation, by the worker, or when the context is dropped, keyvalue.rs:241-249;
  the state is kept while they are. -/
  | persist {w : World} {i k : Nat} {p : Proc} {c : Ctx} : w.procs[i]? = some p → p.ctxs[k]? = some c → c.kept = true →
      Step w (w.put i { p with ctxs := p.ctxs.set k { c with persisting := true } })
  /-- They are persisted. -/
  | persisted {w : World} {i k : Nat} {p : Proc} {c : Ctx} : w.procs[i]? = some p → p.ctxs[k]? = some c →
      Step w (w.put i { p with ctxs := p.ctxs.set k { c with persisting := false } })
  /-- A context is dropped, database.rs:1734-1743, after `delete_database` or with the storage. -/
  | dropCtx {w : World} {i k : Nat} {p : Proc} {c : Ctx} : w.procs[i]? = some p → p.ctxs[k]? = some c →
      Step w (w.put i { p with ctxs := p.ctxs.set k { c with kept := false } })
  /-- The worker ends once the state is gone: keyvalue.rs:775-808. -/
  | workerEnds {w : World} {i k : Nat} {p : Proc} {c : Ctx} : w.procs[i]? = some p → p.ctxs[k]? = some c →
      c.kept = false → c.persisting = false →
      Step w (w.put i { p with ctxs := p.ctxs.set k { c with worker := false } })
  /-- The last handle is dropped: the storage's share of the lock is given up first, storage.rs:236-237. -/
  | close {w : World} {i : Nat} {p : Proc} {n : Nat} : w.procs[i]? = some p → p.stage = .running n →
      Step w (w.put i { p with stage := .closing n })
  /-- The last share is given up: `unlock`, storage.rs:1792-1796. -/
  | release {w : World} {i : Nat} {p : Proc} {n : Nat} : w.procs[i]? = some p → p.stage = .closing n →
      (∀ c ∈ p.ctxs, c.worker = false) → Step w ((w.unlock i).put i { p with stage := .gone })
  /-- The process ends: the lock goes with it. -/
  | crash {w : World} {i : Nat} {p : Proc} : w.procs[i]? = some p →
      Step w ((w.unlock i).put i { p with stage := .gone })
  /-- The process ends while it writes the id: the first `k` characters are there. -/
  | crashWriting {w : World} {i : Nat} {p : Proc} (k : Nat) : w.procs[i]? = some p →
      p.stage = .locked true ∨ (p.stage = .created ∧ p.cfg.isSome = true) →
      Step w (({ w with file := some (overwrite ((decimal (p.cfg.getD p.draw)).take k) w.contents) }.unlock i).put i
        { p with stage := .gone })

/-- Any number of steps. -/
inductive Steps : World → World → Prop
  | refl {w : World} : Steps w w
  | step {w w' w'' : World} : Steps w w' → Step w' w'' → Steps w w''

/-- Nothing there yet. -/
def World.empty : World := ⟨none, none, []⟩

end Bonsai.Lock
