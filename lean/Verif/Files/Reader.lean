import Verif.Files.C50

/-!
# Files: reading and seeking (model)

`Contents` of `crates/bonsaidb-files/src/direct.rs`.  Loops that may not terminate are inductive relations: a
read that never returns has no derivation.  `usize` and `u64` are natural numbers (files shorter than 2^63
bytes); a subtraction that would underflow is a panic, as in builds with overflow checks.
-/
set_option linter.unusedSimpArgs false
set_option linter.unusedSectionVars false

namespace Bonsai.Files
open Bonsai Bonsai.Names Bonsai.Store Bonsai.Query

/-- `Contents`, direct.rs:690-701: `loaded` are pairs of a block index and its data. -/
structure Reader where
  blocks : List BlockInfo
  loaded : List (Nat × Bytes)
  cur : Nat
  off : Nat
  bufSize : Nat
  deriving DecidableEq

/-- `File::contents`, direct.rs:218-231. -/
def Reader.new (cfg : Cfg) (blocks : List BlockInfo) : Reader := ⟨blocks, [], 0, 0, cfg.size * 10⟩

/-- `Contents::clone`, direct.rs:712-724. -/
def Reader.clone (r : Reader) : Reader := { r with loaded := [] }

/-- `Contents::with_buffer_size`, direct.rs:916-919. -/
def Reader.withBufferSize (r : Reader) (n : Nat) : Reader := { r with bufSize := n }

/-- `Contents::len`, direct.rs:924-929. -/
def Reader.len (r : Reader) : Nat :=
  match r.blocks.getLast? with
  | some b => b.offset + b.length
  | none => 0

/-- The condition of `next_blocks`' loop, direct.rs:897-905: how many further blocks fit into the buffer. -/
def fits (bufSize : Nat) : Nat → List BlockInfo → Nat
  | _, [] => 0
  | size, b :: bs => if b.length + size > bufSize then 0 else 1 + fits bufSize (b.length + size) bs

/-- `next_blocks`, direct.rs:894-912: the ids of at least one block.  (Only called when there is a current
block.) -/
def Reader.nextBlocks (r : Reader) : List Bytes :=
  ((r.blocks.drop r.cur).take (max 1 (fits r.bufSize 0 (r.blocks.drop r.cur)))).map fun b => b.header.id

/-- `Block::load`, block.rs:88-108: a `BTreeMap` of the blocks that exist, so in the order of ids. -/
def loadDocs (m : OMap Document) (ids : List Bytes) : List Bytes :=
  (getMultiple m (sortKeys ids)).map fun p => payload p.2

/-- The loaded blocks are numbered from the current block, direct.rs:765-775 and 857-863. -/
def number : Nat → List Bytes → List (Nat × Bytes)
  | _, [] => []
  | i, c :: cs => (i, c) :: number (i + 1) cs

/-- `load_blocks`, direct.rs:763-778, from the documents `m`. -/
def Reader.load (m : OMap Document) (r : Reader) : Reader :=
  { r with loaded := number r.cur (loadDocs m r.nextBlocks) }

/-- `NonBlockingReadResult`. -/
inductive NbRead where
  | need (r : Reader)
  | bytes (b : Bytes) (r : Reader)
  | eof (r : Reader)
  | panic

/-- Whether blocks are left, direct.rs:976-982 and 960-965. -/
def Reader.atBlock (r : Reader) : Bool :=
  r.cur < r.blocks.length || (r.cur + 1 == r.blocks.length && match r.blocks.getLast? with
    | some b => r.off < b.length
    | none => false)

/-- The inner loop of `non_blocking_read`, direct.rs:986-996, with a buffer of `n` bytes; when no block is left
the outer loop decides, direct.rs:974-985.  Slicing beyond the end of a block panics. -/
def Reader.drain (n : Nat) (r : Reader) : List (Nat × Bytes) → Nat → Nat → NbRead
  | [], off, cur =>
    let r := { r with loaded := [], off := off, cur := cur }
    if r.atBlock then .need r else .eof r
  | (i, c) :: l, off, cur =>
    if c.length < off then .panic
    else
      let k := min n (c.drop off).length
      if 0 < k then .bytes ((c.drop off).take k) { r with loaded := (i, c) :: l, off := off + k, cur := cur }
      else r.drain n l 0 (cur + 1)

/-- `non_blocking_read`, direct.rs:970-998, with the callback of `read`, direct.rs:1018-1022. -/
def Reader.nbRead (n : Nat) (r : Reader) : NbRead :=
  match r.loaded with
  | [] => if r.atBlock then .need r else .eof r
  | (i, _) :: _ =>
    if i ≠ r.cur then (if r.atBlock then .need r else .eof r)
    else r.drain n r.loaded r.off r.cur

/-- `Read::read` with a buffer of `n` bytes, direct.rs:1016-1028.  `none`: a panic. -/
inductive Read (m : OMap Document) (n : Nat) : Reader → Option Bytes → Reader → Prop
  | bytes {r b r'} (h : r.nbRead n = .bytes b r') : Read m n r (some b) r'
  | eof {r r'} (h : r.nbRead n = .eof r') : Read m n r (some []) r'
  | load {r r' o r''} (h : r.nbRead n = .need r') (hr : Read m n (r'.load m) o r'') : Read m n r o r''
  | panic {r} (h : r.nbRead n = .panic) : Read m n r none r

/-- `NonBlockingBlockReadResult`. -/
inductive NbBlock where
  | need (r : Reader)
  | block (b : Bytes) (r : Reader)
  | eof (r : Reader)
  | panic

/-- `non_blocking_read_block`, direct.rs:944-968. -/
def Reader.nbBlock (r : Reader) : NbBlock :=
  match r.loaded with
  | [] => if r.atBlock then .need r else .eof r
  | (i, c) :: l =>
    let r := { r with loaded := l }
    if i = r.cur then
      if c.length < r.off then .panic
      else .block (c.drop r.off) { r with cur := r.cur + 1, off := 0 }
    else if r.atBlock then .need r else .eof r

/-- `Iterator::next`, direct.rs:1148-1159.  `none`: a panic. -/
inductive Next (m : OMap Document) : Reader → Option (Option Bytes) → Reader → Prop
  | block {r b r'} (h : r.nbBlock = .block b r') : Next m r (some (some b)) r'
  | eof {r r'} (h : r.nbBlock = .eof r') : Next m r (some none) r'
  | load {r r' o r''} (h : r.nbBlock = .need r') (hr : Next m (r'.load m) o r'') : Next m r o r''
  | panic {r} (h : r.nbBlock = .panic) : Next m r none r

/-- `SeekFrom` (std). -/
inductive SeekFrom where
  | start (offset : Nat)
  | fromEnd (offset : Int)
  | current (offset : Int)

/-- Where to seek, direct.rs:1033-1058; `none`: a panic (underflow, index out of bounds, failed conversion,
overflow of `i64`). -/
def Reader.seekTo (r : Reader) : SeekFrom → Option Nat
  | .start o => some o
  | .fromEnd e =>
    if e < 0 then (if e.natAbs ≤ r.len then some (r.len - e.natAbs) else none) else some r.len
  | .current d =>
    match r.blocks[r.cur]? with
    | none => none
    | some b =>
      if 0 ≤ ((b.offset + r.off : Nat) : Int) + d ∧ ((b.offset + r.off : Nat) : Int) + d < 2 ^ 63 then
        some (((b.offset + r.off : Nat) : Int) + d).toNat
      else none

/-- The first block that ends after a position, direct.rs:1059-1064. -/
def findBlock (p : Nat) : Nat → List BlockInfo → Option (Nat × BlockInfo)
  | _, [] => none
  | i, b :: bs => if b.offset + b.length > p then some (i, b) else findBlock p (i + 1) bs

/-- Moving to a position, direct.rs:1059-1078. -/
def Reader.moveTo (r : Reader) (p : Nat) : Option (Nat × Reader) :=
  match findBlock p 0 r.blocks with
  | some (i, b) => if b.offset ≤ p then some (p, { r with cur := i, off := p - b.offset }) else none
  | none =>
    match r.blocks.getLast? with
    | some b => some (b.offset + b.length, { r with cur := r.blocks.length - 1, off := b.length })
    | none => some (0, { r with cur := 0, off := 0 })

/-- `Seek::seek`, direct.rs:1032-1079: the reported position. -/
def Reader.seek (r : Reader) (from_ : SeekFrom) : Option (Nat × Reader) :=
  match from_ with
  | .current d =>
    if r.blocks = [] then some (0, r) else (r.seekTo (.current d)).bind r.moveTo
  | f => (r.seekTo f).bind r.moveTo

/-! ## The asynchronous reader -/

/-- `Contents` for async databases: the ids requested from the loading task, if any (direct.rs:703-709). -/
structure AReader where
  r : Reader
  requested : Option (List Bytes)

/-- `AsyncRead::poll_read` with `n` bytes left in the buffer, direct.rs:1114-1140, with `fetch_blocks`
(direct.rs:843-890).  The result: whether the poll is ready, and the bytes it put into the buffer.  The loading
task answers at some time (`receive`); before that the poll is `Pending`. -/
inductive Poll (m : OMap Document) : Nat → AReader → Option (Bool × Bytes) → AReader → Prop
  | eof {n a r'} (h : a.r.nbRead n = .eof r') : Poll m n a (some (true, [])) { a with r := r' }
  | full {n a b r'} (h : a.r.nbRead n = .bytes b r') (hb : n - b.length = 0) :
      Poll m n a (some (true, b)) { a with r := r' }
  | more {n a b r' ready b' a'} (h : a.r.nbRead n = .bytes b r') (hb : 0 < n - b.length)
      (hp : Poll m (n - b.length) { a with r := r' } (some (ready, b')) a') : Poll m n a (some (ready, b ++ b')) a'
  | request {n a r' o a'} (h : a.r.nbRead n = .need r') (hq : a.requested = none)
      (hp : Poll m n ⟨{ r' with loaded := [] }, some r'.nextBlocks⟩ o a') : Poll m n a o a'
  | receive {n a r' ids o a'} (h : a.r.nbRead n = .need r') (hq : a.requested = some ids)
      (hp : Poll m n ⟨{ r' with loaded := r'.loaded ++ number r'.cur (loadDocs m ids) }, none⟩ o a') : Poll m n a o a'
  | pending {n a r' ids} (h : a.r.nbRead n = .need r') (hq : a.requested = some ids) :
      Poll m n a (some (false, [])) { a with r := r' }
  | panic {n a} (h : a.r.nbRead n = .panic) : Poll m n a none a

/-- `Stream::poll_next`, direct.rs:1169-1188: whether the poll is ready, and the block (`none` at the end).  -/
inductive PollNext (m : OMap Document) : AReader → Option (Bool × Option Bytes) → AReader → Prop
  | eof {a r'} (h : a.r.nbBlock = .eof r') : PollNext m a (some (true, none)) { a with r := r' }
  | block {a b r'} (h : a.r.nbBlock = .block b r') : PollNext m a (some (true, some b)) { a with r := r' }
  | request {a r' o a'} (h : a.r.nbBlock = .need r') (hq : a.requested = none)
      (hp : PollNext m ⟨{ r' with loaded := [] }, some r'.nextBlocks⟩ o a') : PollNext m a o a'
  | receive {a r' ids o a'} (h : a.r.nbBlock = .need r') (hq : a.requested = some ids)
      (hp : PollNext m ⟨{ r' with loaded := r'.loaded ++ number r'.cur (loadDocs m ids) }, none⟩ o a') : PollNext m a o a'
  | pending {a r' ids} (h : a.r.nbBlock = .need r') (hq : a.requested = some ids) :
      PollNext m a (some (false, none)) { a with r := r' }
  | panic {a} (h : a.r.nbBlock = .panic) : PollNext m a none a

/-- `AsyncSeek::poll_complete`, direct.rs:1092-1105: the position. -/
def Reader.pollComplete (r : Reader) : Nat :=
  if r.blocks = [] then 0
  else match r.blocks[r.cur]? with
    | some b => b.offset + r.off
    | none => r.len

end Bonsai.Files
