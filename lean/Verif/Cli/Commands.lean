import Verif.Schema.Summary
/-!
# The commands of the command line (model)

`crates/bonsaidb-local/src/cli/schema.rs`, `crates/bonsaidb/src/cli.rs`, `crates/bonsaidb-server/src/cli/serve.rs`.
-/
set_option linter.unusedSimpArgs false
set_option linter.unusedVariables false

namespace Bonsai.Cli

open Bonsai Bonsai.Names Bonsai.Store Bonsai.Schm

/-! ## `schema` -/

/-- `ViewName::to_string`, names.rs:364-370. -/
def displayV (v : VName) : Bytes := displayQ v.collection ++ 46 :: displayName v.name

/-- `CollectionOrView`, schema.rs:100-107. -/
inductive Item where
  | view (v : VName)
  | collection (c : QName)
  deriving DecidableEq

/-- `CollectionOrView::from_str`, schema.rs:109-119. -/
def parseItem (s : Bytes) : Option Item :=
  match parseV s with
  | some v => some (.view v)
  | none => (parseQ s).map .collection

/-- A line that is printed; the policy and the version as values, schema.rs:54-55, 66, 87, 96. -/
inductive Line where
  | name (text : Bytes)
  | version (n : Nat)
  | policy (p : Policy)
  deriving DecidableEq

/-- What the command ends with.  `usage`: clap refuses the arguments. -/
inductive Shown where
  | lines (l : List Line)
  | usage | schemaNotRegistered | collectionNotFound | viewNotFound
  deriving DecidableEq

/-- The derived `Ord` of `QualifiedName` and `ViewName` (names.rs:10, 194, 308, 341): the names in turn, by their bytes. -/
def partsQ (q : QName) : List Bytes := [strBytes q.authority, strBytes q.name]
def partsV (v : VName) : List Bytes := partsQ v.collection ++ [strBytes v.name]

/-- `a.cmp(b)` is not `Greater`. -/
def notAfter (a b : List Bytes) : Bool := decide (a ≤ b)

/-- `handle_schema_command`, schema.rs:35-80, with `print_schema_list` and `print_collection_list`, 83-98.  The maps of a
summary are iterated in any order, which is the order of the lists here. -/
def handleSchema {K : Type} (schemas : List (SchemaSummary K)) : Option QName → Option Item → Shown
  | some name, item =>
    match schemas.find? (fun s => s.name == name) with
    | none => .schemaNotRegistered
    | some schema =>
      match item with
      | some (.view v) =>
        match schema.collection v.collection with
        | none => .collectionNotFound
        | some c =>
          match c.view v with
          | none => .viewNotFound
          | some x => .lines [.version x.version, .policy x.policy]
      | some (.collection q) =>
        match schema.collection q with
        | none => .collectionNotFound
        | some c =>
          .lines (((c.views.map (·.2)).mergeSort fun x y => notAfter (partsV x.name) (partsV y.name)).map
            fun x => .name (displayV x.name))
      | none =>
        .lines (((schema.collections.map (·.2)).mergeSort fun x y => notAfter (partsQ x.name) (partsQ y.name)).map
          fun x => .name (displayQ x.name))
  | none, some _ => .usage
  | none, none =>
    .lines ((schemas.mergeSort fun x y => notAfter (partsQ x.name) (partsQ y.name)).map fun x => .name (displayQ x.name))

/-- `bonsaidb schema [NAME] [ITEM]`: the arguments are parsed by `SchemaName::from_str` (names.rs:299-305) and
`CollectionOrView::from_str` before the storage is asked, schema.rs:10-32. -/
def schemaCmd {K : Type} (schemas : List (SchemaSummary K)) : List Bytes → Shown
  | [] => handleSchema schemas none none
  | [n] =>
    match parseQ n with
    | none => .usage
    | some q => handleSchema schemas (some q) none
  | [n, i] =>
    match parseQ n, parseItem i with
    | some q, some it => handleSchema schemas (some q) (some it)
    | _, _ => .usage
  | _ => .usage

/-! ## `Args::execute` -/

/-- `Command`, bonsaidb cli.rs:18-27. -/
inductive Which where
  | server | external
  deriving DecidableEq

/-- The options, bonsaidb cli.rs:92-115. -/
structure Options where
  url : Bool
  certificate : Bool
  username : Bool
  token : Bool

/-- What the program does. -/
inductive Act2 where
  | readCertificate | openServer
  | connect (pinned : Bool)
  | readPassword | authPassword | readToken | authToken
  | runServer
  | runExternal (remote : Bool)
  deriving DecidableEq

/-- Each action in turn, until one fails; `true` if none does. -/
def perform (ok : Act2 → Bool) : List Act2 → List Act2 × Bool
  | [] => ([], true)
  | a :: l => if ok a then (a :: (perform ok l).1, (perform ok l).2) else ([a], false)

/-- `Command::execute`, bonsaidb cli.rs:35-90: the actions, and whether it then succeeds. -/
def commandActs (w : Which) (o : Options) : List Act2 × Bool :=
  match w with
  | .server => if o.url then ([], false) else ([.openServer, .runServer], true)
  | .external =>
    ((if o.url then [Act2.connect o.certificate] else [.openServer]) ++
      (if o.username then [.readPassword, .authPassword] else []) ++
      (if o.token then [.readToken, .authToken] else []) ++ [.runExternal o.url], true)

/-- `Args::execute`, bonsaidb cli.rs:117-140. -/
def execArgs (ok : Act2 → Bool) (w : Which) (o : Options) : List Act2 × Bool :=
  let c := commandActs w o
  let r := perform ok ((if o.certificate then [.readCertificate] else []) ++ c.1)
  (r.1, r.2 && c.2)

/-! ## `serve` -/

/-- A task that listens, serve.rs:72-76, 82-86, 98-99: not spawned, before its bind, listening, ended with an error that
nobody reads. -/
inductive Listener where
  | off | starting | listening | failed
  deriving DecidableEq

/-- `execute_with`: in the loop that waits for a certificate (serve.rs:88-95); in `listen_for_shutdown` (101), whose
states are C81's; returned; killed by a signal that nothing handles (signals are handled in `listen_for_shutdown`
only, server.rs:789-796). -/
inductive Phase where
  | certificate | running | returned | killed
  deriving DecidableEq

structure Serve where
  phase : Phase
  http : Listener
  https : Listener
  quic : Listener
  /-- A certificate is installed. -/
  cert : Bool
  /-- `CustomServer::shutdown` was called. -/
  asked : Bool
  deriving DecidableEq

/-- serve.rs:57-89, 98-99 with the features `websockets` and `acme`. -/
def Serve.init (cert : Bool) : Serve :=
  if cert then ⟨.running, .starting, .starting, .starting, true, false⟩
  else ⟨.certificate, .starting, .starting, .off, false, false⟩

def Serve.alive (s : Serve) : Prop := s.phase = .certificate ∨ s.phase = .running

/-- One step of the program or of its environment.  What listeners do after they listen is C81's. -/
inductive Serve.Step : Serve → Serve → Prop where
  /-- tcp.rs:17. -/
  | http {s : Serve} (ok : Bool) : s.alive → s.http = .starting →
      Step s { s with http := if ok then .listening else .failed }
  /-- tcp.rs:71, 92: without a certificate too. -/
  | https {s : Serve} (ok : Bool) : s.alive → s.https = .starting →
      Step s { s with https := if ok then .listening else .failed }
  /-- server.rs:382-391: an error if there is no certificate. -/
  | quic {s : Serve} (ok : Bool) : s.alive → s.quic = .starting →
      Step s { s with quic := if ok && s.cert then .listening else .failed }
  /-- acme.rs:96, or somebody installs one. -/
  | install {s : Serve} : s.alive → Step s { s with cert := true }
  /-- serve.rs:91-99. -/
  | go {s : Serve} : s.phase = .certificate → s.cert = true → Step s { s with phase := .running, quic := .starting }
  /-- server.rs:767-775. -/
  | ask {s : Serve} : s.alive → Step s { s with asked := true }
  | signalWaiting {s : Serve} : s.phase = .certificate → Step s { s with phase := .killed }
  /-- server.rs:800-846. -/
  | signalRunning {s : Serve} : s.phase = .running → Step s { s with phase := .returned, asked := true }
  /-- server.rs:839-841. -/
  | ends {s : Serve} : s.phase = .running → s.asked = true → Step s { s with phase := .returned }

inductive Serve.Steps : Serve → Serve → Prop where
  | refl {s : Serve} : Steps s s
  | step {a b c : Serve} : Steps a b → Step b c → Steps a c

end Bonsai.Cli
