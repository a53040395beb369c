/-!
# Messages out of band and their callbacks (model)

`crates/bonsaidb-client/src/client.rs:861-985`, `builder.rs`, and what the workers do with a payload:
`quic_worker.rs:142-153`, `tungstenite_worker.rs:122-143`, `wasm_websocket_worker.rs:231-257`.  A connection that works:
what happens when it ends is C54's and C94's.
-/
set_option linter.unusedSimpArgs false
set_option linter.unusedVariables false

namespace Bonsai.Callbacks

/-! ## The builder -/

/-- `with_api` and `with_api_callback`, builder.rs:74-85; callbacks are known by a number. -/
inductive Reg where
  | api (name : String)
  | callback (name : String) (f : Nat)

/-- `custom_apis.insert`, builder.rs:75, 82-83. -/
def insertReg (m : String → Option (Option Nat)) : Reg → String → Option (Option Nat)
  | .api n => fun x => if x = n then some none else m x
  | .callback n f => fun x => if x = n then some (some f) else m x

/-- The callbacks of a client, builder.rs:44-58; client.rs:322-342 adds the one for the messages of subscriptions, here
`own` with the name `reserved`. -/
def callbacks (reserved : String) (own : Nat) (regs : List Reg) : String → Option (Option Nat) :=
  insertReg (regs.foldl insertReg fun _ => none) (.callback reserved own)

/-- `custom_apis.get(&payload.name).and_then(Option::as_ref)`, client.rs:878. -/
def callbackOf (m : String → Option (Option Nat)) (name : String) : Option Nat := (m name).bind id

/-! ## Payloads -/

/-- A payload of the server: the response to a request; the `m`-th message out of band. -/
inductive Payload where
  | response (r : Nat)
  | message (m : Nat)
  deriving DecidableEq

/-- What the messages are: has the client a callback for its API, and is its value a value that it can decode
(client.rs:877-880, 962-970); how many requests to the same client the callback makes and waits for, one after the other;
and does the client run in a browser.  Other things that a callback waits for come. -/
structure Cfg where
  has : Nat → Bool
  calls : Nat → Nat
  browser : Bool

/-- A request: not made yet; waited for; given its response; given up (its responder stays in the map). -/
inductive Req where
  | new | out | answered | timedOut
  deriving DecidableEq

/-- A callback for message `m` that has `left` requests to make, or waits for request `r` before those. -/
inductive Task where
  | run (m left : Nat)
  | wait (m left r : Nat)
  deriving DecidableEq

structure St where
  next : Nat
  req : Nat → Req
  /-- Was it made by a callback? -/
  inner : Nat → Bool
  /-- Did the server respond to it? -/
  responded : Nat → Bool
  /-- How many messages were sent. -/
  sent : Nat
  /-- What arrived and was not handled. -/
  inbox : List Payload
  tasks : List Task
  /-- The messages whose callbacks were invoked, and those whose callbacks ended. -/
  started : List Nat
  finished : List Nat

def St.init : St := ⟨0, fun _ => .new, fun _ => false, fun _ => false, 0, [], [], [], []⟩

/-- A request changes. -/
def St.setReq (st : St) (r : Nat) (x : Req) : St := { st with req := fun j => if j = r then x else st.req j }

/-- One step; `true` if it is a timeout. -/
inductive Step (c : Cfg) : Bool → St → St → Prop where
  /-- client.rs:487-506. -/
  | call {st : St} : Step c false st { st.setReq st.next .out with next := st.next + 1 }
  /-- The server responds to a request that was sent. -/
  | respond {st : St} {r : Nat} : r < st.next → st.responded r = false →
      Step c false st { st with
        responded := fun j => if j = r then true else st.responded j, inbox := st.inbox ++ [.response r] }
  /-- The server sends a message: connected_client.rs:96-108. -/
  | send {st : St} : Step c false st { st with sent := st.sent + 1, inbox := st.inbox ++ [.message st.sent] }
  /-- client.rs:866-876: the workers wait for the payload before it (quic_worker.rs:147-150,
  tungstenite_worker.rs:133); in a browser each payload is handled by a task of its own
  (wasm_websocket_worker.rs:248-250). -/
  | take {st : St} {r : Nat} {rest : List Payload} : c.browser = true ∨ st.tasks = [] →
      st.inbox = .response r :: rest →
      Step c false st { st.setReq r (if st.req r = .out then .answered else st.req r) with inbox := rest }
  /-- client.rs:877-884, 962-970. -/
  | ignore {st : St} {m : Nat} {rest : List Payload} : c.browser = true ∨ st.tasks = [] →
      st.inbox = .message m :: rest → c.has m = false → Step c false st { st with inbox := rest }
  | invoke {st : St} {m : Nat} {rest : List Payload} : c.browser = true ∨ st.tasks = [] →
      st.inbox = .message m :: rest → c.has m = true →
      Step c false st { st with
        inbox := rest, tasks := st.tasks ++ [.run m (c.calls m)], started := st.started ++ [m] }
  /-- A callback makes a request of the client. -/
  | inner {st : St} {m k : Nat} {a b : List Task} : st.tasks = a ++ .run m (k + 1) :: b →
      Step c false st { st.setReq st.next .out with
        next := st.next + 1, inner := (fun j => if j = st.next then true else st.inner j)
        tasks := a ++ .wait m k st.next :: b }
  /-- It has its response or gave up. -/
  | resume {st : St} {m k r : Nat} {a b : List Task} : st.tasks = a ++ .wait m k r :: b → st.req r ≠ .out →
      Step c false st { st with tasks := a ++ .run m k :: b }
  | finish {st : St} {m : Nat} {a b : List Task} : st.tasks = a ++ .run m 0 :: b →
      Step c false st { st with tasks := a ++ b, finished := st.finished ++ [m] }
  /-- client.rs:536-540. -/
  | timeout {st : St} {r : Nat} : st.req r = .out → Step c true st (st.setReq r .timedOut)

/-- Any execution. -/
inductive Steps (c : Cfg) : St → St → Prop where
  | refl {st : St} : Steps c st st
  | step {a b d : St} {t : Bool} : Steps c a b → Step c t b d → Steps c a d

/-- An execution in which nobody gives up. -/
inductive Patient (c : Cfg) : St → St → Prop where
  | refl {st : St} : Patient c st st
  | step {a b d : St} : Patient c a b → Step c false b d → Patient c a d

end Bonsai.Callbacks
