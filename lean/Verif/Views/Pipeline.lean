/-!
# The three threads that update a view (model)

`DocumentRequest::map`, `crates/bonsaidb-local/src/views/mapper.rs:160-394`: one thread reads the documents in batches
of 1024, one maps each batch with several workers, one saves the mappings.  They are connected by channels of capacity
one; each batch has a channel of its own for its documents.  `flume::bounded(n).send` waits while the channel is full
and fails if its receiver is gone; `recv` waits while the channel is empty and fails if it is empty and its senders are
gone.  `Parallel::run` (easy-parallel) waits for all its closures and panics if one of them panicked.
-/
set_option linter.unusedSimpArgs false
set_option linter.unusedVariables false

namespace Bonsai.Pipe

/-- A document id. -/
abbrev Doc := Nat

/-- What `map` is called with: the ids in chunks (`document_ids.chunks(1024)`, mapper.rs:183), the number of workers
(`parallelization`, mapper.rs:374), and what will go wrong: documents whose `map` fails (mapper.rs:225-228), chunks that
cannot be read (`get_multiple`, mapper.rs:188), batches that cannot be saved (mapper.rs:343-358: a reduce function that
fails, a unique key that is violated, an I/O error). -/
structure Cfg where
  chunks : List (List Doc)
  workers : Nat
  badDoc : Doc → Bool
  badRead : Nat → Bool
  badSave : Nat → Bool

/-- Where `generate_batches` is, mapper.rs:176-206: about to send the next batch, about to read its documents, sending
the rest of them, returned, returned an error, panicked in an `unwrap`. -/
inductive GPc where
  | send | read
  | docs (rest : List Doc)
  | done | failed | panicked

/-- Where `map_batches` is, mapper.rs:208-265: waiting for a batch; mapping batch `i` with `active` workers that have
not ended, `failed` if one of them returned an error; about to send batch `i`; returned; returned an error. -/
inductive MPc where
  | idle
  | work (i active : Nat) (failed : Bool)
  | send (i : Nat)
  | done | failed

/-- Where `save_mappings` is, mapper.rs:328-361. -/
inductive SPc where
  | run | done | failed | panicked

/-- The threads and the channels.  Batches are named by their position. -/
structure St where
  /-- The batch `generate_batches` is at. -/
  gi : Nat
  g : GPc
  /-- The channel of batches, capacity one, mapper.rs:364. -/
  q : List Nat
  /-- The channel of the documents of each batch, mapper.rs:184. -/
  buf : Nat → List Doc
  /-- Its sender is dropped. -/
  closed : Nat → Bool
  /-- Its receiver is dropped. -/
  gone : Nat → Bool
  m : MPc
  /-- The documents that were mapped in each batch. -/
  got : Nat → List Doc
  /-- The channel of mapped batches, capacity one, mapper.rs:365. -/
  mq : List Nat
  s : SPc
  /-- The batches that were saved. -/
  saved : List Nat

/-- `f` with another value at `i`. -/
def upd {α : Type} (f : Nat → α) (i : Nat) (x : α) : Nat → α := fun j => if j = i then x else f j

/-- mapper.rs:363-367. -/
def St.init : St := ⟨0, .send, [], fun _ => [], fun _ => false, fun _ => false, .idle, fun _ => [], [], .run, []⟩

/-- `generate_batches` has returned (or panicked): its sender of batches is dropped, mapper.rs:204. -/
def GPc.ended : GPc → Bool
  | .done | .failed | .panicked => true
  | _ => false

/-- `map_batches` has returned: its sender of mapped batches is dropped, mapper.rs:263. -/
def MPc.ended : MPc → Bool
  | .done | .failed => true
  | _ => false

def SPc.ended : SPc → Bool
  | .done | .failed | .panicked => true
  | .run => false

/-- The ids of batch `i`. -/
def Cfg.chunk (c : Cfg) (i : Nat) : List Doc := (c.chunks[i]?).getD []

/-- `document_maps.get(key).unwrap()`, mapper.rs:282, succeeds for each id of the batch. -/
def Cfg.complete (c : Cfg) (st : St) (i : Nat) : Prop := ∀ d ∈ c.chunk i, d ∈ st.got i

/-- One step of one thread.  The receivers of the two channels of batches belong to `map`, mapper.rs:364-365: the
closures only borrow them (mapper.rs:371, 381), so they live until all threads have ended. -/
inductive Step (c : Cfg) : St → St → Prop where
  /-- mapper.rs:183-187. -/
  | gSend {st : St} : st.g = .send → st.gi < c.chunks.length → st.q = [] →
      Step c st { st with q := [st.gi], g := .read }
  /-- mapper.rs:204-205. -/
  | gEnd {st : St} : st.g = .send → st.gi = c.chunks.length → Step c st { st with g := .done }
  /-- mapper.rs:188-191; the documents are sent from the last to the first. -/
  | gRead {st : St} : st.g = .read → c.badRead st.gi = false →
      Step c st { st with g := .docs (c.chunk st.gi).reverse }
  /-- mapper.rs:188: `?` drops the senders. -/
  | gReadErr {st : St} : st.g = .read → c.badRead st.gi = true →
      Step c st { st with g := .failed, closed := upd st.closed st.gi true }
  /-- mapper.rs:197-199; this channel holds the whole batch. -/
  | gDoc {st : St} {d : Doc} {rest : List Doc} : st.g = .docs (d :: rest) → st.gone st.gi = false →
      Step c st { st with g := .docs rest, buf := upd st.buf st.gi (st.buf st.gi ++ [d]) }
  /-- mapper.rs:197-199: `send(..).unwrap()` when the receiver is dropped. -/
  | gPanic {st : St} {d : Doc} {rest : List Doc} : st.g = .docs (d :: rest) → st.gone st.gi = true →
      Step c st { st with g := .panicked, closed := upd st.closed st.gi true }
  /-- mapper.rs:202. -/
  | gNext {st : St} : st.g = .docs [] →
      Step c st { st with g := .send, gi := st.gi + 1, closed := upd st.closed st.gi true }
  /-- mapper.rs:215-221: the workers are started. -/
  | mTake {st : St} {i : Nat} : st.m = .idle → st.q = [i] →
      Step c st { st with q := [], m := .work i c.workers false }
  /-- mapper.rs:215, 263-264. -/
  | mEnd {st : St} : st.m = .idle → st.q = [] → st.g.ended = true → Step c st { st with m := .done }
  /-- mapper.rs:223-239: a worker maps a document. -/
  | wOk {st : St} {i a : Nat} {f : Bool} {d : Doc} {rest : List Doc} : st.m = .work i (a + 1) f →
      st.buf i = d :: rest → c.badDoc d = false →
      Step c st { st with buf := upd st.buf i rest, got := upd st.got i (st.got i ++ [d]) }
  /-- mapper.rs:225-228: a worker returns an error. -/
  | wBad {st : St} {i a : Nat} {f : Bool} {d : Doc} {rest : List Doc} : st.m = .work i (a + 1) f →
      st.buf i = d :: rest → c.badDoc d = true →
      Step c st { st with buf := upd st.buf i rest, m := .work i a true }
  /-- mapper.rs:223, 242: a worker has no more documents. -/
  | wEnd {st : St} {i a : Nat} {f : Bool} : st.m = .work i (a + 1) f → st.buf i = [] → st.closed i = true →
      Step c st { st with m := .work i a f }
  /-- mapper.rs:246: `result?`; the receiver of the batch is dropped. -/
  | mFail {st : St} {i : Nat} : st.m = .work i 0 true →
      Step c st { st with m := .failed, gone := upd st.gone i true }
  /-- mapper.rs:245-260. -/
  | mMapped {st : St} {i : Nat} : st.m = .work i 0 false → Step c st { st with m := .send i }
  /-- mapper.rs:261. -/
  | mSend {st : St} {i : Nat} : st.m = .send i → st.mq = [] → Step c st { st with m := .idle, mq := [i] }
  /-- mapper.rs:335-358. -/
  | sOk {st : St} {i : Nat} : st.s = .run → st.mq = [i] → c.complete st i → c.badSave i = false →
      Step c st { st with mq := [], saved := st.saved ++ [i] }
  | sBad {st : St} {i : Nat} : st.s = .run → st.mq = [i] → c.complete st i → c.badSave i = true →
      Step c st { st with mq := [], s := .failed }
  /-- mapper.rs:282. -/
  | sPanic {st : St} {i : Nat} : st.s = .run → st.mq = [i] → ¬ c.complete st i →
      Step c st { st with mq := [], s := .panicked }
  /-- mapper.rs:341, 360. -/
  | sEnd {st : St} : st.s = .run → st.mq = [] → st.m.ended = true → Step c st { st with s := .done }

/-- Any number of steps. -/
inductive Steps (c : Cfg) : St → St → Nat → Prop where
  | refl {st : St} : Steps c st st 0
  | step {a b d : St} {n : Nat} : Steps c a b n → Step c b d → Steps c a d (n + 1)

/-- `Parallel::run` returns: all three have ended. -/
def St.ended (st : St) : Bool := st.g.ended && st.m.ended && st.s.ended

/-- What `map` does then, mapper.rs:367-394. -/
inductive Outcome where
  | ok | err | panic
  deriving DecidableEq

/-- mapper.rs:367-394: a panic of a closure is a panic of `run`; otherwise the first error. -/
def St.outcome (st : St) : Outcome :=
  match st.g, st.m, st.s with
  | .panicked, _, _ => .panic
  | _, _, .panicked => .panic
  | .failed, _, _ => .err
  | _, .failed, _ => .err
  | _, _, .failed => .err
  | _, _, _ => .ok

/-! ## The documents given to the workers -/

/-- mapper.rs:188-200: the documents found, sorted by id, are taken from the end while the ids are visited backwards.
`docs` is reversed here, so that its head is the last. -/
def pairUp {α : Type} : List Doc → List (Doc × α) → List (Doc × Option α)
  | [], _ => []
  | id :: ids, [] => (id, none) :: pairUp ids []
  | id :: ids, (key, x) :: docs =>
    if key = id then (id, some x) :: pairUp ids docs else (id, none) :: pairUp ids ((key, x) :: docs)

/-- The documents of a chunk as they are sent; `found` is what `get_multiple` returned, sorted by id
(mapper.rs:188-189). -/
def sentDocs {α : Type} (chunk : List Doc) (found : List (Doc × α)) : List (Doc × Option α) :=
  pairUp chunk.reverse found.reverse

/-! ## How the ids are divided -/

/-- `slice::chunks(k)`: pieces of `k` from the front, the last may be shorter (std; mapper.rs:183 with `k = 1024`). -/
def chunksOf (k : Nat) (ids : List Doc) : List (List Doc) :=
  if h : ids = [] ∨ k = 0 then [] else ids.take k :: chunksOf k (ids.drop k)
termination_by ids.length
decreasing_by
  have : ids.length ≠ 0 := by simpa using fun h' => h (Or.inl h')
  simp only [List.length_drop]
  omega

/-- `map_view`, mapper.rs:119-155: the invalidated ids are drained `k` at a time from the back (`CHUNK_SIZE`,
mapper.rs:112), one transaction for each. -/
def rounds (k : Nat) (ids : List Doc) : List (List Doc) :=
  if h : ids = [] ∨ k = 0 then [] else ids.drop (ids.length - k) :: rounds k (ids.take (ids.length - k))
termination_by ids.length
decreasing_by
  have : ids.length ≠ 0 := by simpa using fun h' => h (Or.inl h')
  simp only [List.length_take]
  omega

end Bonsai.Pipe
