import Verif.Net.Server

/-!
# Shutting a server down, signals and listeners (model)

`crates/bonsaidb-server/src/server/shutdown.rs`, `server.rs:380-428` and `761-849`, `server/tcp.rs:10-137`.

`tokio::sync::watch` has one value; a receiver remembers which version of it it has seen.  `send` fails, and changes
nothing, when there is no receiver; `closed()` waits for that.  Time is counted in milliseconds.
-/
set_option linter.unusedVariables false

namespace Bonsai.Net

/-- `ShutdownState`, shutdown.rs:13-18. -/
inductive SdValue where
  | running
  | graceful
  | forced
  deriving DecidableEq

/-- `Shutdown`, shutdown.rs:7-11: the channel's value and its version, whether the prototype receiver is there, and the
watchers, each with the version it has seen. -/
structure Sd where
  value : SdValue
  version : Nat
  proto : Bool
  watchers : List Nat
  deriving DecidableEq

/-- `Shutdown::new`, shutdown.rs:21-27. -/
def Sd.new : Sd := ⟨.running, 0, true, []⟩

/-- The number of receivers. -/
def Sd.receivers (s : Sd) : Nat := s.watchers.length + (if s.proto then 1 else 0)

/-- `watch::Sender::send`: does nothing when nobody receives. -/
def Sd.send (s : Sd) (v : SdValue) : Sd :=
  if s.receivers = 0 then s else { s with value := v, version := s.version + 1 }

/-- `stop_watching`, shutdown.rs:36-39. -/
def Sd.stopWatching (s : Sd) : Sd := { s with proto := false }

/-- `watcher`, shutdown.rs:29-34: a clone of the prototype, which has seen the first version. -/
def Sd.watcher (s : Sd) : Option Sd := if s.proto then some { s with watchers := s.watchers ++ [0] } else none

/-- `should_shutdown`, shutdown.rs:60-62. -/
def Sd.shouldShutdown (s : Sd) : Bool := s.value == .forced

/-- `wait_for_shutdown` of a watcher that has seen version `w` is ready, shutdown.rs:71-73.  (The sender is never
dropped: every task of the server holds the server.) -/
def Sd.ready (s : Sd) (w : Nat) : Prop := w < s.version

/-- A call of `shutdown` and how far it got. -/
inductive Call where
  /-- `graceful_shutdown` with a timeout, before line 42, 43 and while it waits for the watchers (44-46), since when. -/
  | gStop (timeout : Nat)
  | gSend (timeout : Nat)
  | gWait (since timeout : Nat)
  /-- `shutdown`, before lines 56 and 57. -/
  | fStop
  | fSend
  | done
  deriving DecidableEq

/-- `listen_for_shutdown`, server.rs:779-849.  `sig` is `SignalShutdownState`: the call that was started. -/
inductive SigLoop where
  | off
  /-- Before 802. -/
  | poll (sig : Option Nat)
  /-- Before 833. -/
  | check (sig : Option Nat)
  /-- 843. -/
  | sleep (wake : Nat) (sig : Option Nat)
  /-- 845, before and during the call. -/
  | breaking
  | forced (call : Nat)
  | returned
  deriving DecidableEq

/-- A server, as far as its shutdown is concerned. -/
structure DSys where
  sd : Sd
  now : Nat
  calls : List Call
  /-- `flag`, server.rs:789: 0, 1 (SIGINT) or 2 (SIGTERM, SIGQUIT). -/
  flag : Nat
  loop : SigLoop
  deriving DecidableEq

def DSys.new : DSys := ⟨.new, 0, [], 0, .off⟩

inductive DLabel where
  | tick
  | interrupt
  | terminate
  /-- `shutdown(Some(timeout))` and `shutdown(None)` by the application. -/
  | graceful (timeout : Nat)
  | force
  /-- `listen_for_shutdown` is called. -/
  | listen
  /-- A call goes on. -/
  | call
  /-- A listener or connection starts, looks or ends. -/
  | watch
  /-- `listen_for_shutdown` goes on. -/
  | loop
  deriving DecidableEq

inductive DStep : DSys → DLabel → DSys → Prop
  | tick {σ n} : DStep σ .tick { σ with now := σ.now + n }
  | interrupt {σ} : DStep σ .interrupt { σ with flag := 1 }
  | terminate {σ} : DStep σ .terminate { σ with flag := 2 }
  /-- server.rs:768-772. -/
  | graceful {σ t} : DStep σ (.graceful t) { σ with calls := σ.calls ++ [.gStop t] }
  | force {σ} : DStep σ .force { σ with calls := σ.calls ++ [.fStop] }
  /-- shutdown.rs:42. -/
  | gStop {σ i t} (h : σ.calls[i]? = some (.gStop t)) :
      DStep σ .call { σ with sd := σ.sd.stopWatching, calls := σ.calls.set i (.gSend t) }
  /-- shutdown.rs:43-44. -/
  | gSendFails {σ i t} (h : σ.calls[i]? = some (.gSend t)) (hr : σ.sd.receivers = 0) :
      DStep σ .call { σ with calls := σ.calls.set i .done }
  | gSend {σ i t} (h : σ.calls[i]? = some (.gSend t)) (hr : σ.sd.receivers ≠ 0) :
      DStep σ .call { σ with sd := σ.sd.send .graceful, calls := σ.calls.set i (.gWait σ.now t) }
  /-- shutdown.rs:44-46. -/
  | closed {σ i t₀ t} (h : σ.calls[i]? = some (.gWait t₀ t)) (hr : σ.sd.receivers = 0) :
      DStep σ .call { σ with calls := σ.calls.set i .done }
  | timeout {σ i t₀ t} (h : σ.calls[i]? = some (.gWait t₀ t)) (hr : σ.sd.receivers ≠ 0) (ht : t₀ + t ≤ σ.now) :
      DStep σ .call { σ with calls := σ.calls.set i .fStop }
  /-- shutdown.rs:56-57. -/
  | fStop {σ i} (h : σ.calls[i]? = some .fStop) :
      DStep σ .call { σ with sd := σ.sd.stopWatching, calls := σ.calls.set i .fSend }
  | fSend {σ i} (h : σ.calls[i]? = some .fSend) :
      DStep σ .call { σ with sd := σ.sd.send .forced, calls := σ.calls.set i .done }
  /-- A listener, or a connection, asks for a watcher; shutdown.rs:29-34. -/
  | watcher {σ s} (h : σ.sd.watcher = some s) : DStep σ .watch { σ with sd := s }
  /-- A watcher is cloned (server.rs:698, 727; websockets.rs:209). -/
  | clone {σ} {i w : Nat} (h : σ.sd.watchers[i]? = some w) :
      DStep σ .watch { σ with sd := { σ.sd with watchers := σ.sd.watchers ++ [w] } }
  /-- `wait_for_shutdown` answers. -/
  | look {σ} {i w : Nat} (h : σ.sd.watchers[i]? = some w) (hr : σ.sd.ready w) :
      DStep σ .watch { σ with sd := { σ.sd with watchers := σ.sd.watchers.set i σ.sd.version } }
  /-- A watcher is dropped. -/
  | drop {σ i} (h : i < σ.sd.watchers.length) :
      DStep σ .watch { σ with sd := { σ.sd with watchers := σ.sd.watchers.eraseIdx i } }
  | listen {σ} (h : σ.loop = .off) : DStep σ .listen { σ with loop := .poll none }
  /-- server.rs:802-831. -/
  | pollNothing {σ sig} (h : σ.loop = .poll sig) (hf : σ.flag = 0) : DStep σ .loop { σ with loop := .check sig }
  | pollFirst {σ} (h : σ.loop = .poll none) (hf : σ.flag = 1) :
      DStep σ .loop { σ with calls := σ.calls ++ [.gStop 30000], loop := .check (some σ.calls.length) }
  | pollSecond {σ i} (h : σ.loop = .poll (some i)) (hf : σ.flag = 1) : DStep σ .loop { σ with loop := .breaking }
  | pollTerminate {σ sig} (h : σ.loop = .poll sig) (hf : σ.flag = 2) : DStep σ .loop { σ with loop := .breaking }
  /-- server.rs:833-841. -/
  | checkDone {σ i} (h : σ.loop = .check (some i)) (hd : σ.calls[i]? = some .done) :
      DStep σ .loop { σ with loop := .returned }
  | checkNotDone {σ i} (h : σ.loop = .check (some i)) (hd : σ.calls[i]? ≠ some .done) :
      DStep σ .loop { σ with loop := .sleep (σ.now + 300) (some i) }
  | checkShutdown {σ} (h : σ.loop = .check none) (hd : σ.sd.shouldShutdown = true) :
      DStep σ .loop { σ with loop := .returned }
  | checkRunning {σ} (h : σ.loop = .check none) (hd : σ.sd.shouldShutdown = false) :
      DStep σ .loop { σ with loop := .sleep (σ.now + 300) none }
  /-- server.rs:843. -/
  | wake {σ w sig} (h : σ.loop = .sleep w sig) (hw : w ≤ σ.now) : DStep σ .loop { σ with loop := .poll sig }
  /-- server.rs:845. -/
  | forceStart {σ} (h : σ.loop = .breaking) :
      DStep σ .loop { σ with calls := σ.calls ++ [.fStop], loop := .forced σ.calls.length }
  | forceEnd {σ i} (h : σ.loop = .forced i) (hd : σ.calls[i]? = some .done) : DStep σ .loop { σ with loop := .returned }

/-- Histories whose labels satisfy `P`. -/
inductive DExec (P : DLabel → Prop) : DSys → DSys → Prop
  | refl (σ) : DExec P σ σ
  | step {σ σ' σ'' l} (h : DExec P σ σ') (hs : DStep σ' l σ'') (hp : P l) : DExec P σ σ''

/-! ## Listeners -/

/-- What a listener meets, in the order in which it meets it. -/
inductive LEvent where
  /-- A connection that is accepted. -/
  | accepted (conn : Nat)
  /-- Accepting fails: too many open files, a connection that is gone already. -/
  | failed
  /-- The server shuts down. -/
  | shutdown
  deriving DecidableEq

/-- What became of a listener: the connections it handed over, and whether it has ended. -/
structure Listened where
  handled : List Nat
  ended : Bool
  deriving DecidableEq

/-- `listen_for_tcp_on`, tcp.rs:26-54; the QUIC listener `listen_on`, server.rs:400-427, treats these the same. -/
def listenTcp : List LEvent → Listened
  | [] => ⟨[], false⟩
  | .accepted c :: es => ⟨c :: (listenTcp es).handled, (listenTcp es).ended⟩
  | .failed :: es => listenTcp es
  | .shutdown :: _ => ⟨[], true⟩

/-- `listen_for_secure_tcp_on`, tcp.rs:97-136: no watcher, and `?` on the result of `accept`. -/
def listenSecureTcp : List LEvent → Listened
  | [] => ⟨[], false⟩
  | .accepted c :: es => ⟨c :: (listenSecureTcp es).handled, (listenSecureTcp es).ended⟩
  | .failed :: _ => ⟨[], true⟩
  | .shutdown :: es => listenSecureTcp es

end Bonsai.Net
