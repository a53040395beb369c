import Verif.Files.C50b

/-!
# Buffered appends to files (model)

`crates/bonsaidb-files/src/direct.rs:1199-1400`: `BufferedAppend` (blocking) and `AsyncBufferedAppend`.  The
writers call `File::append`, modelled in `Verif/Files/Model.lean`.
-/
set_option linter.unusedSimpArgs false
set_option linter.unusedSectionVars false

namespace Bonsai.Files
open Bonsai Bonsai.Names Bonsai.Store Bonsai.Query

/-- The capacity of a vector after `Vec::with_capacity(req)`, or after `reserve_exact(req)` of a vector without
capacity (std): at least what was requested; nothing is allocated for 0. -/
def Alloc (req cap : Nat) : Prop := req ≤ cap ∧ (req = 0 → cap = 0)

/-- The default capacity, direct.rs:1227-1231 (1304-1308). -/
def defaultCapacity (cfg : Cfg) : Nat := 1024 * 1024 / cfg.size * cfg.size

/-! ## The blocking writer -/

/-- `BufferedAppend`, direct.rs:1201-1205: the capacity and the bytes of the buffer. -/
structure Buffered where
  cap : Nat
  buf : Bytes

/-- `File::append_buffered`, direct.rs:253-259. -/
def Buffered.new : Buffered := ⟨0, []⟩

/-- `Write::flush`, direct.rs:1245-1251. -/
def Buffered.flush (s : Schema) (cfg : Cfg) (fid : Nat) (now : BitVec 64) (tid : Nat) (w : Buffered) (db : Db) :
    Except Err Unit × Buffered × Db :=
  match append s cfg w.buf fid now tid db with
  | (.error e, db) => (.error e, w, db)
  | (.ok _, db) => (.ok (), { w with buf := [] }, db)

/-- What fits is copied, direct.rs:1236-1242. -/
def Buffered.put (w : Buffered) (data : Bytes) : Nat × Buffered :=
  if data = [] then (0, w)
  else
    (min data.length (w.cap - w.buf.length),
      { w with buf := w.buf ++ data.take (min data.length (w.cap - w.buf.length)) })

/-- `Write::write`, direct.rs:1225-1243.  `c` is the capacity the allocator provides. -/
def Buffered.write (s : Schema) (cfg : Cfg) (fid : Nat) (c : Nat) (now : BitVec 64) (tid : Nat) (w : Buffered)
    (data : Bytes) (db : Db) : Except Err Nat × Buffered × Db :=
  if w.cap = 0 then
    if cfg.size = 0 then (.error .panic, w, db)
    else (.ok (({ w with cap := c } : Buffered).put data).1, (({ w with cap := c } : Buffered).put data).2, db)
  else if w.cap = w.buf.length then
    match w.flush s cfg fid now tid db with
    | (.error e, w, db) => (.error e, w, db)
    | (.ok _, w, db) => (.ok (w.put data).1, (w.put data).2, db)
  else (.ok (w.put data).1, (w.put data).2, db)

/-- `set_buffer_size`, direct.rs:1213-1219. -/
def Buffered.resize (s : Schema) (cfg : Cfg) (fid : Nat) (c : Nat) (now : BitVec 64) (tid : Nat) (w : Buffered) (db : Db) :
    Except Err Unit × Buffered × Db :=
  if 0 < w.cap then
    match w.flush s cfg fid now tid db with
    | (.error e, w, db) => (.error e, w, db)
    | (.ok _, _, db) => (.ok (), ⟨c, []⟩, db)
  else (.ok (), ⟨c, []⟩, db)

/-- What happens to a writer and its file. -/
inductive Ev where
  /-- `write(data)` answered `Ok(n)`. -/
  | wrote (data : Bytes) (n : Nat)
  | writeFailed (data : Bytes) (e : Err)
  /-- `flush()` answered `Ok`. -/
  | flushed
  | flushFailed (e : Err)
  /-- `set_buffer_size` answered `Ok`. -/
  | resized
  | resizeFailed (e : Err)
  /-- The writer was dropped.  Its caller cannot see whether the last bytes were written. -/
  | dropped
  /-- Others changed the database: what they did to files. -/
  | env (ops : List FOp)
  /-- A poll answered `Pending`. -/
  | pending
  /-- A poll panicked. -/
  | panicked
  /-- Work that nobody waits for at this moment. -/
  | background

/-- A writer, until it is dropped, and the database. -/
structure WState where
  w : Option Buffered
  db : Db

/-- A call of the writer of the file `fid`, or anything done by others (`Run`: also appends to the same file).
`drop` flushes and ignores the result, direct.rs:1257-1259. -/
inductive WStep (s : Schema) (cfg : Cfg) (fid : Nat) : WState → Ev → WState → Prop
  | write {w db data c now tid n w' db'} (hc : Alloc (defaultCapacity cfg) c)
      (h : w.write s cfg fid c now tid data db = (.ok n, w', db')) :
      WStep s cfg fid ⟨some w, db⟩ (.wrote data n) ⟨some w', db'⟩
  | writeFails {w db data c now tid e w' db'} (hc : Alloc (defaultCapacity cfg) c)
      (h : w.write s cfg fid c now tid data db = (.error e, w', db')) :
      WStep s cfg fid ⟨some w, db⟩ (.writeFailed data e) ⟨some w', db'⟩
  | flush {w db now tid w' db'} (h : w.flush s cfg fid now tid db = (.ok (), w', db')) :
      WStep s cfg fid ⟨some w, db⟩ .flushed ⟨some w', db'⟩
  | flushFails {w db now tid e w' db'} (h : w.flush s cfg fid now tid db = (.error e, w', db')) :
      WStep s cfg fid ⟨some w, db⟩ (.flushFailed e) ⟨some w', db'⟩
  | resize {w db req c now tid w' db'} (hc : Alloc req c) (h : w.resize s cfg fid c now tid db = (.ok (), w', db')) :
      WStep s cfg fid ⟨some w, db⟩ .resized ⟨some w', db'⟩
  | resizeFails {w db req c now tid e w' db'} (hc : Alloc req c)
      (h : w.resize s cfg fid c now tid db = (.error e, w', db')) :
      WStep s cfg fid ⟨some w, db⟩ (.resizeFailed e) ⟨some w', db'⟩
  | drop {w db now tid r w' db'} (h : w.flush s cfg fid now tid db = (r, w', db')) :
      WStep s cfg fid ⟨some w, db⟩ .dropped ⟨none, db'⟩
  | env {w db ops db'} (h : Run s cfg db ops db') : WStep s cfg fid ⟨w, db⟩ (.env ops) ⟨w, db'⟩

/-- Executions with their events. -/
inductive WExec (s : Schema) (cfg : Cfg) (fid : Nat) : WState → List Ev → WState → Prop
  | nil (σ) : WExec s cfg fid σ [] σ
  | snoc {σ es σ₁ e σ₂} (h : WExec s cfg fid σ es σ₁) (hs : WStep s cfg fid σ₁ e σ₂) : WExec s cfg fid σ (es ++ [e]) σ₂

/-- `Write::write_all` (std): `write` until everything is taken; `none` is the error `WriteZero`. -/
inductive WriteAll (s : Schema) (cfg : Cfg) (fid : Nat) :
    Buffered → Db → Bytes → Except (Option Err) Unit → Buffered → Db → Prop
  | done (w db) : WriteAll s cfg fid w db [] (.ok ()) w db
  | fails {w db data c now tid e w' db'} (hd : data ≠ []) (hc : Alloc (defaultCapacity cfg) c)
      (h : w.write s cfg fid c now tid data db = (.error e, w', db')) :
      WriteAll s cfg fid w db data (.error (some e)) w' db'
  | zero {w db data c now tid w' db'} (hd : data ≠ []) (hc : Alloc (defaultCapacity cfg) c)
      (h : w.write s cfg fid c now tid data db = (.ok 0, w', db')) :
      WriteAll s cfg fid w db data (.error none) w' db'
  | more {w db data c now tid n w' db' r w'' db''} (hd : data ≠ []) (hc : Alloc (defaultCapacity cfg) c)
      (h : w.write s cfg fid c now tid data db = (.ok n, w', db')) (hn : n ≠ 0)
      (hr : WriteAll s cfg fid w' db' (data.drop n) r w'' db'') : WriteAll s cfg fid w db data r w'' db''

/-! ## The asynchronous writer -/

/-- The future of `File::append` that a flush is waiting for, direct.rs:1353-1358.  Its transaction is executed at
some time after the first poll (`running`, then `applied`); `finished`: it has already returned its result. -/
inductive Fut where
  | running (b : Bytes)
  | applied (b : Bytes) (r : Except Err Unit)
  | finished

/-- `AsyncBufferedAppend`, direct.rs:1265-1271. -/
structure ABuffered where
  cap : Nat
  buf : Bytes
  fut : Option Fut

/-- `File::append_buffered`, direct.rs:497-504. -/
def ABuffered.new : ABuffered := ⟨0, [], none⟩

/-- The answer of a poll; a panic unwinds to the caller. -/
inductive PollR (α : Type) where
  | pending
  | ready (r : Except Err α)
  | panic

/-- How a future behaves at a poll: `now`, whether the transaction of a new future is executed and its result
returned within the first poll; `seen`, whether the completion of an old one is noticed. -/
structure Sched where
  now : Option (BitVec 64 × Nat)
  seen : Bool

/-- `poll_flush`, direct.rs:1334-1364.  A future that has returned its result must not be polled again: the
`async` block panics.  The capacity of the new buffer is at least that of the old one (`c`). -/
def ABuffered.pollFlush (s : Schema) (cfg : Cfg) (fid : Nat) (k : Sched) (c : Nat) (w : ABuffered) (db : Db) :
    PollR Unit × ABuffered × Db :=
  match w.fut with
  | some .finished => (.panic, w, db)
  | some (.running _) => (.pending, w, db)
  | some (.applied _ r) => if k.seen then (.ready r, { w with fut := none }, db) else (.pending, w, db)
  | none =>
    if w.buf = [] then (.ready (.ok ()), w, db)
    else match k.now with
      | none => (.pending, ⟨c, [], some (.running w.buf)⟩, db)
      | some (ts, tid) =>
        (.ready (append s cfg w.buf fid ts tid db).1, ⟨c, [], some .finished⟩, (append s cfg w.buf fid ts tid db).2)

/-- direct.rs:1325-1331. -/
def ABuffered.put (w : ABuffered) (data : Bytes) : Nat × ABuffered :=
  if data = [] then (0, w)
  else
    (min data.length (w.cap - w.buf.length),
      { w with buf := w.buf ++ data.take (min data.length (w.cap - w.buf.length)) })

/-- `poll_write` once the buffer has a capacity, direct.rs:1311-1331. -/
def ABuffered.pollWriteWith (s : Schema) (cfg : Cfg) (fid : Nat) (k : Sched) (c : Nat) (w : ABuffered) (data : Bytes)
    (db : Db) : PollR Nat × ABuffered × Db :=
  if w.fut.isSome ∨ w.cap = w.buf.length then
    match w.pollFlush s cfg fid k c db with
    | (.panic, w, db) => (.panic, w, db)
    | (.pending, w, db) => (.pending, w, db)
    | (.ready (.error e), w, db) => (.ready (.error e), w, db)
    | (.ready (.ok _), w, db) => (.ready (.ok (w.put data).1), (w.put data).2, db)
  else (.ready (.ok (w.put data).1), (w.put data).2, db)

/-- `poll_write`, direct.rs:1298-1332.  `c₀` is the capacity of the first buffer, `c` that of the one a flush
creates. -/
def ABuffered.pollWrite (s : Schema) (cfg : Cfg) (fid : Nat) (k : Sched) (c₀ c : Nat) (w : ABuffered) (data : Bytes)
    (db : Db) : PollR Nat × ABuffered × Db :=
  if w.cap = 0 then
    if cfg.size = 0 then (.panic, w, db)
    else ({ w with cap := c₀ } : ABuffered).pollWriteWith s cfg fid k c data db
  else w.pollWriteWith s cfg fid k c data db

/-- A poll of `set_buffer_size`, direct.rs:1282-1288: `flush().await?` and then a new buffer. -/
def ABuffered.pollResize (s : Schema) (cfg : Cfg) (fid : Nat) (k : Sched) (c c' : Nat) (w : ABuffered) (db : Db) :
    PollR Unit × ABuffered × Db :=
  if 0 < w.cap then
    match w.pollFlush s cfg fid k c db with
    | (.panic, w, db) => (.panic, w, db)
    | (.pending, w, db) => (.pending, w, db)
    | (.ready (.error e), w, db) => (.ready (.error e), w, db)
    | (.ready (.ok _), w, db) => (.ready (.ok ()), { w with cap := c', buf := [] }, db)
  else (.ready (.ok ()), { w with cap := c', buf := [] }, db)

/-- `drop`, direct.rs:1370-1396: the buffer goes to a task of its own; with an empty buffer a running future is
dropped (its transaction may still be executed, for example because `AsyncDatabase` runs it on another thread).
`none`: the assertion panics. -/
def ABuffered.drop (w : ABuffered) : Option (List Bytes) :=
  if w.buf ≠ [] then if w.fut.isSome then none else some [w.buf]
  else match w.fut with
    | some (.running b) => some [b]
    | _ => some []

/-- Futures behave in any way. -/
def Any (_ : Sched) : Prop := True

/-- No append completes within its first poll. -/
def NeverAtOnce (k : Sched) : Prop := k.now = none

/-- The writer, the appends nobody waits for, and the database. -/
structure AState where
  w : Option ABuffered
  bg : List Bytes
  db : Db

/-- The capacity of the buffer that replaces the old one in a flush: `Vec::with_capacity(self.buffer.capacity())`. -/
def Realloc (w : ABuffered) (c : Nat) : Prop := Alloc w.cap c

/-- What the capacities of a `poll_write` may be. -/
def WriteAlloc (cfg : Cfg) (w : ABuffered) (c₀ c : Nat) : Prop :=
  Alloc (defaultCapacity cfg) c₀ ∧ Alloc (if w.cap = 0 then c₀ else w.cap) c

/-- A poll or another step; `K` restricts how futures behave (`Any`: not at all). -/
inductive AStep (s : Schema) (cfg : Cfg) (fid : Nat) (K : Sched → Prop) : AState → Ev → AState → Prop
  | write {w bg db data k c₀ c n w' db'} (hk : K k) (hc : WriteAlloc cfg w c₀ c)
      (h : w.pollWrite s cfg fid k c₀ c data db = (.ready (.ok n), w', db')) :
      AStep s cfg fid K ⟨some w, bg, db⟩ (.wrote data n) ⟨some w', bg, db'⟩
  | writeFails {w bg db data k c₀ c e w' db'} (hk : K k) (hc : WriteAlloc cfg w c₀ c)
      (h : w.pollWrite s cfg fid k c₀ c data db = (.ready (.error e), w', db')) :
      AStep s cfg fid K ⟨some w, bg, db⟩ (.writeFailed data e) ⟨some w', bg, db'⟩
  | writePends {w bg db data k c₀ c w' db'} (hk : K k) (hc : WriteAlloc cfg w c₀ c)
      (h : w.pollWrite s cfg fid k c₀ c data db = (.pending, w', db')) :
      AStep s cfg fid K ⟨some w, bg, db⟩ .pending ⟨some w', bg, db'⟩
  | writePanics {w bg db data k c₀ c w' db'} (hk : K k) (hc : WriteAlloc cfg w c₀ c)
      (h : w.pollWrite s cfg fid k c₀ c data db = (.panic, w', db')) :
      AStep s cfg fid K ⟨some w, bg, db⟩ .panicked ⟨some w', bg, db'⟩
  | flush {w bg db k c w' db'} (hk : K k) (hc : Realloc w c) (h : w.pollFlush s cfg fid k c db = (.ready (.ok ()), w', db')) :
      AStep s cfg fid K ⟨some w, bg, db⟩ .flushed ⟨some w', bg, db'⟩
  | flushFails {w bg db k c e w' db'} (hk : K k) (hc : Realloc w c)
      (h : w.pollFlush s cfg fid k c db = (.ready (.error e), w', db')) :
      AStep s cfg fid K ⟨some w, bg, db⟩ (.flushFailed e) ⟨some w', bg, db'⟩
  | flushPends {w bg db k c w' db'} (hk : K k) (hc : Realloc w c) (h : w.pollFlush s cfg fid k c db = (.pending, w', db')) :
      AStep s cfg fid K ⟨some w, bg, db⟩ .pending ⟨some w', bg, db'⟩
  | flushPanics {w bg db k c w' db'} (hk : K k) (hc : Realloc w c) (h : w.pollFlush s cfg fid k c db = (.panic, w', db')) :
      AStep s cfg fid K ⟨some w, bg, db⟩ .panicked ⟨some w', bg, db'⟩
  | resize {w bg db k req c c' w' db'} (hk : K k) (hc : Realloc w c) (hr : Alloc req c')
      (h : w.pollResize s cfg fid k c c' db = (.ready (.ok ()), w', db')) :
      AStep s cfg fid K ⟨some w, bg, db⟩ .resized ⟨some w', bg, db'⟩
  | resizeFails {w bg db k req c c' e w' db'} (hk : K k) (hc : Realloc w c) (hr : Alloc req c')
      (h : w.pollResize s cfg fid k c c' db = (.ready (.error e), w', db')) :
      AStep s cfg fid K ⟨some w, bg, db⟩ (.resizeFailed e) ⟨some w', bg, db'⟩
  | resizePends {w bg db k req c c' w' db'} (hk : K k) (hc : Realloc w c) (hr : Alloc req c')
      (h : w.pollResize s cfg fid k c c' db = (.pending, w', db')) :
      AStep s cfg fid K ⟨some w, bg, db⟩ .pending ⟨some w', bg, db'⟩
  | resizePanics {w bg db k req c c' w' db'} (hk : K k) (hc : Realloc w c) (hr : Alloc req c')
      (h : w.pollResize s cfg fid k c c' db = (.panic, w', db')) :
      AStep s cfg fid K ⟨some w, bg, db⟩ .panicked ⟨some w', bg, db'⟩
  /-- The transaction of a flush is executed. -/
  | runs {cap buf b bg db now tid r db'} (h : append s cfg b fid now tid db = (r, db')) :
      AStep s cfg fid K ⟨some ⟨cap, buf, some (.running b)⟩, bg, db⟩ .background
        ⟨some ⟨cap, buf, some (.applied b r)⟩, bg, db'⟩
  | drop {w l bg db} (h : w.drop = some l) : AStep s cfg fid K ⟨some w, bg, db⟩ .dropped ⟨none, bg ++ l, db⟩
  | dropPanics {w bg db} (h : w.drop = none) : AStep s cfg fid K ⟨some w, bg, db⟩ .panicked ⟨none, bg, db⟩
  /-- An append nobody waits for is executed; its result is ignored. -/
  | bgRuns {w b bg db now tid r db'} (h : append s cfg b fid now tid db = (r, db')) :
      AStep s cfg fid K ⟨w, b :: bg, db⟩ .background ⟨w, bg, db'⟩
  /-- … or is never executed: the future was dropped, the runtime was shut down. -/
  | bgLost {w b bg db} : AStep s cfg fid K ⟨w, b :: bg, db⟩ .background ⟨w, bg, db⟩
  | env {w bg db ops db'} (h : Run s cfg db ops db') : AStep s cfg fid K ⟨w, bg, db⟩ (.env ops) ⟨w, bg, db'⟩

inductive AExec (s : Schema) (cfg : Cfg) (fid : Nat) (K : Sched → Prop) : AState → List Ev → AState → Prop
  | nil (σ) : AExec s cfg fid K σ [] σ
  | snoc {σ es σ₁ e σ₂} (h : AExec s cfg fid K σ es σ₁) (hs : AStep s cfg fid K σ₁ e σ₂) : AExec s cfg fid K σ (es ++ [e]) σ₂

/-! ## Specification -/

/-- What an event says was accepted: the first `n` bytes of the data, if `write` answered `Ok(n)`. -/
def took : Ev → Bytes
  | .wrote data n => data.take n
  | _ => []

/-- The bytes the writer has accepted, in order. -/
def accepted (es : List Ev) : Bytes := es.flatMap took

/-- What others did to files, in order. -/
def envOf : Ev → List FOp
  | .env ops => ops
  | _ => []

def envOps (es : List Ev) : List FOp := es.flatMap envOf

/-- The event is a flush that succeeded (`set_buffer_size` flushes). -/
def Ev.flushes : Ev → Bool
  | .flushed => true
  | .resized => true
  | _ => false

/-- The bytes accepted after the last flush that succeeded. -/
def unflushed (es : List Ev) : Bytes := es.foldl (fun acc e => if e.flushes then [] else acc ++ took e) []

/-- The event is an error reported to the caller. -/
def Ev.fails : Ev → Bool
  | .writeFailed _ _ => true
  | .flushFailed _ => true
  | .resizeFailed _ => true
  | _ => false

/-- `ops` are the appends of the pieces `ps` to the file and the operations of others, in some order that keeps the
order of each. -/
inductive Interleaved (fid : Nat) : List Bytes → List FOp → List FOp → Prop
  | nil : Interleaved fid [] [] []
  | mine {ps env ops} (p : Bytes) (h : Interleaved fid ps env ops) : Interleaved fid (ps ++ [p]) env (ops ++ [.append fid p])
  | other {ps env ops} (o : FOp) (h : Interleaved fid ps env ops) : Interleaved fid ps (env ++ [o]) (ops ++ [o])

/-- The operation does not concern the file. -/
def Elsewhere (fid : Nat) : FOp → Prop
  | .append g _ => g ≠ fid
  | .truncate g _ _ => g ≠ fid

end Bonsai.Files
