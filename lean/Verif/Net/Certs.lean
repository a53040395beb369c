import Verif.Net.Server

/-!
# Certificates (model)

`crates/bonsaidb-server/src/server.rs:236-376`, `server/tcp.rs:72-86, 172-212`, `server/acme.rs`, `hosted.rs`.

One `TlsCertificate` document is kept for the primary domain; reading and writing it is the database's business
(C29, C70) and here a single step.  A certificate is known by a number, its leaf by another; `ecdsa` says whether
`any_ecdsa_type` accepts its key.
-/
set_option linter.unusedVariables false

namespace Bonsai.Net

/-- A certificate chain with its key. -/
structure TCert where
  id : Nat
  leaf : Nat
  ecdsa : Bool
  deriving DecidableEq

/-- What is being done. -/
inductive TKind where
  /-- `install_certificate` or `install_pem_certificate`. -/
  | install
  /-- `install_self_signed_certificate`. -/
  | selfSigned (overwrite : Bool)
  /-- `refresh_certified_key` at the start of a secure listener, tcp.rs:73. -/
  | refresh
  deriving DecidableEq

/-- How far it is. -/
inductive TStage where
  /-- Before server.rs:240. -/
  | check
  /-- Before server.rs:287-297. -/
  | write
  /-- Before server.rs:310. -/
  | read
  /-- Before server.rs:312-325, with what was read. -/
  | set (c : TCert)
  /-- Before server.rs:302. -/
  | lookup
  /-- Before server.rs:303. -/
  | removeFile
  /-- Before server.rs:247-251. -/
  | pin
  | ok
  | err
  deriving DecidableEq

/-- A call. -/
structure TTask where
  kind : TKind
  cert : TCert
  stage : TStage
  deriving DecidableEq

/-- The document, the key in memory that TLS connections are given, the file `pinned-certificate.der`, and the calls. -/
structure TW where
  stored : Option TCert
  cache : Option TCert
  pinned : Option Nat
  tasks : List TTask
  deriving DecidableEq

/-- A call at its beginning: server.rs:237, 280, 309. -/
def TTask.new (k : TKind) (c : TCert) : TTask :=
  ⟨k, c, match k with
    | .install => .write
    | .selfSigned _ => .check
    | .refresh => .read⟩

/-- After `install_certificate`, server.rs:306: a self-signed certificate is pinned. -/
def TTask.installed (t : TTask) : TStage :=
  match t.kind with
  | .selfSigned _ => .pin
  | _ => .ok

/-- `overwrite`, server.rs:240. -/
def TKind.overwrite : TKind → Bool
  | .selfSigned o => o
  | _ => true

/-- The next step of a call. -/
def TTask.next (w : TW) (t : TTask) : TW × TTask :=
  match t.stage with
  | .check => (w, { t with stage := if w.stored.isSome && !t.kind.overwrite then .err else .write })
  | .write => ({ w with stored := some t.cert }, { t with stage := .read })
  | .read => (w, { t with stage := match w.stored with | none => .err | some c => .set c })
  | .set c =>
    if c.ecdsa then
      ({ w with cache := some c }, { t with stage := if t.kind = .refresh then .ok else .lookup })
    else (w, { t with stage := .err })
  | .lookup => (w, { t with stage := if w.pinned.isSome then .removeFile else t.installed })
  | .removeFile =>
    if w.pinned.isSome then ({ w with pinned := none }, { t with stage := t.installed }) else (w, { t with stage := .err })
  | .pin => ({ w with pinned := some t.cert.leaf }, { t with stage := .ok })
  | .ok => (w, t)
  | .err => (w, t)

/-- What happens: a call begins (shown with what it is and the certificate it brings), a call goes on, the process ends
and is started again.  A step that writes the file writes all of it. -/
inductive TStep : TW → Option (TKind × TCert) → TW → Prop
  | start {w : TW} (k : TKind) (c : TCert) : TStep w (some (k, c)) { w with tasks := w.tasks ++ [TTask.new k c] }
  | go {w : TW} {i : Nat} {t : TTask} : w.tasks[i]? = some t →
      TStep w none { (t.next w).1 with tasks := w.tasks.set i (t.next w).2 }
  | crash {w : TW} : TStep w none { w with cache := none, tasks := [] }

/-- Any number of steps, with the calls that began. -/
inductive TSteps : TW → List (TKind × TCert) → TW → Prop
  | refl {w : TW} : TSteps w [] w
  | step {w w' w'' : TW} {l : List (TKind × TCert)} {o : Option (TKind × TCert)} : TSteps w l w' → TStep w' o w'' →
      TSteps w (l ++ o.toList) w''

/-- A call that runs while no other does: up to `n` steps of it. -/
def TTask.run : Nat → TW → TTask → TW × TTask
  | 0, w, t => (w, t)
  | n + 1, w, t => TTask.run n (t.next w).1 (t.next w).2

/-- `resolve`, tcp.rs:172-212: the certificate for a handshake with the protocols and the server name the client sends.
`challenges` are the certificates of running ACME orders by domain; `acme` is the name of the ACME protocol. -/
def resolveCert (acme : List UInt8) (challenges : List UInt8 → Option TCert) (cache : Option TCert)
    (alpn : Option (List (List UInt8))) (name : Option (List UInt8)) : Option TCert :=
  if (match alpn with | none => false | some l => l.any (fun p => p == acme)) then
    match name with
    | none => none
    | some n => challenges n
  else cache

/-! ## Renewal -/

/-- The time before which no new certificate is ordered, in seconds: acme.rs:101-102. -/
def renewBefore : Nat := 24 * 60 * 60 * 14

/-- The wait between two looks, acme.rs:104. -/
def renewPoll : Nat := 60 * 60

/-- What `update_acme_certificates` does, acme.rs:96-131.  `until k now` is `duration_until_renewal_attempt` of crate
`async_acme`; `key now` is the key TLS connections are given at a time. -/
inductive ALoop where
  /-- Waiting with the key that was cloned, acme.rs:99; the next look is at `at`. -/
  | waiting (key : Option TCert) (at_ : Nat)
  /-- An order is running since a time, for the key that was cloned. -/
  | ordering (key : Option TCert) (since : Nat)
  /-- Returned with an error, acme.rs:129, tcp.rs:79-81. -/
  | ended
  deriving DecidableEq

/-- A step of the loop, with the time at which an order begins. -/
inductive AStep (untilR : Option TCert → Nat → Nat) (key : Nat → Option TCert) : ALoop → Option Nat → ALoop → Prop
  /-- Not yet: acme.rs:100-105. -/
  | wait {k : Option TCert} {t : Nat} : untilR k t > renewBefore →
      AStep untilR key (.waiting k t) none (.waiting k (t + renewPoll))
  /-- It is time: acme.rs:108-129. -/
  | order {k : Option TCert} {t : Nat} : untilR k t ≤ renewBefore →
      AStep untilR key (.waiting k t) (some t) (.ordering k t)
  /-- The order succeeds at some time; the key is cloned again, acme.rs:99. -/
  | success {k : Option TCert} {s t : Nat} : s ≤ t → AStep untilR key (.ordering k s) none (.waiting (key t) t)
  /-- The order fails: `?`, acme.rs:129. -/
  | failure {k : Option TCert} {s : Nat} : AStep untilR key (.ordering k s) none .ended

/-- Any number of steps, with the times at which orders began. -/
inductive ASteps (untilR : Option TCert → Nat → Nat) (key : Nat → Option TCert) : ALoop → List Nat → ALoop → Prop
  | refl {a : ALoop} : ASteps untilR key a [] a
  | step {a b c : ALoop} {l : List Nat} {o : Option Nat} : ASteps untilR key a l b → AStep untilR key b o c →
      ASteps untilR key a (l ++ o.toList) c

/-- The loop when the listener starts, tcp.rs:77-79. -/
def ALoop.start (key : Nat → Option TCert) (now : Nat) : ALoop := .waiting (key now) now

end Bonsai.Net
