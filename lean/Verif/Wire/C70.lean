import Verif.Wire.Model

/-!
# C70: a call through a client is the same call on the server
-/
set_option linter.unusedSimpArgs false
set_option linter.unusedVariables false

namespace Bonsai.Wire
open Bonsai Bonsai.Names Bonsai.Store Bonsai.Query Bonsai.Access

variable {F : Type}

/-! ## The handler a request reaches -/

/-- No two requests have the same name. -/
theorem C70_names_distinct (a b : Api) (h : a.name = b.name) : a = b := by
  cases a <;> cases b <;> first | rfl | (exact absurd h (by decide))

/-- Every request is registered; `Authenticate` and `SetUserPassword` if passwords are compiled in. -/
theorem C70_registered (f : Features) (a : Api)
    (hp : a = .authenticate ∨ a = .setUserPassword → f.passwords = true) : a ∈ builtin f := by
  cases a <;> simp [builtin] <;> exact hp (by simp)

theorem find?_map_last (l : List Api) (a : Api) (ha : a ∈ l) :
    ((l.map fun b => (b.apiName, some b)).reverse.find? fun p => p.1 = a.apiName) =
      some (a.apiName, some a) := by
  rw [← List.map_reverse]
  have ha' : a ∈ l.reverse := List.mem_reverse.2 ha
  generalize l.reverse = l' at ha'
  induction l' with
  | nil => cases ha'
  | cons b t ih =>
    simp only [List.map_cons, List.find?_cons]
    by_cases hb : b.apiName = a.apiName
    · have : b = a := C70_names_distinct b a (Prod.mk.inj hb).2
      subst this
      simp
    · simp only [decide_eq_false hb]
      rcases List.mem_cons.1 ha' with h | h
      · subst h; exact absurd rfl hb
      · exact ih h

/-- Whatever handlers the backend of the server registers, a request of BonsaiDb reaches its own
handler. -/
theorem C70_own_handler (f : Features) (custom : List ApiName) (a : Api) (ha : a ∈ builtin f) :
    findHandler (handlers f custom) a.apiName = some (some a) := by
  unfold findHandler handlers
  rw [List.reverse_append, List.find?_append, find?_map_last _ _ ha]
  rfl

/-- A handler of the backend is reached under its own name, if that is no name of BonsaiDb. -/
theorem C70_custom_handler (f : Features) (custom : List ApiName) (n : ApiName) (hn : n ∈ custom)
    (hb : n.1 ≠ "bonsaidb") : findHandler (handlers f custom) n = some none := by
  unfold findHandler handlers
  rw [List.reverse_append, List.find?_append]
  have h1 : (((builtin f).map fun a => (a.apiName, some a)).reverse.find?
      fun p => decide (p.1 = n)) = none := by
    rw [List.find?_eq_none]
    intro p hp
    rw [List.mem_reverse, List.mem_map] at hp
    obtain ⟨a, _, rfl⟩ := hp
    simp only [decide_eq_true_eq]
    intro h
    exact hb (by rw [← h]; rfl)
  rw [h1, Option.none_or, ← List.map_reverse]
  have hn' : n ∈ custom.reverse := List.mem_reverse.2 hn
  generalize custom.reverse = l at hn'
  induction l with
  | nil => cases hn'
  | cons m t ih =>
    simp only [List.map_cons, List.find?_cons]
    by_cases hm : m = n
    · simp [hm]
    · simp only [decide_eq_false hm]
      rcases List.mem_cons.1 hn' with h | h
      · exact absurd h.symm hm
      · exact ih h

/-- The server calls the handler of the request with what was sent. -/
theorem serve_send {C : Codec F} (hC : C.Lawful) (cfg : Config) (sid : Option Nat)
    (q : (a : Api) × a.Req F) (hq : q.1 ∈ builtin cfg.features) :
    serve C (handlers cfg.features cfg.custom) (send C sid q) = .ok (some (handle q.1 q.2)) := by
  unfold serve send
  simp only [C70_own_handler _ _ _ hq, hC.request]

theorem database_registered (f : Features) (k : Kind) (db : String) (c : DbCall F) :
    (k.database db c).1 ∈ builtin f := by
  apply C70_registered
  cases k <;> cases c <;> simp [Kind.database, asyncDatabase, blockingDatabase]

theorem handle_database (k : Kind) (db : String) (c : DbCall F) :
    handle (k.database db c).1 (k.database db c).2 = .database db c := by
  cases k <;> cases c <;> rfl

theorem handle_storage (k : Kind) (c : StCall) :
    handle (k.storage (F := F) c).1 (k.storage c).2 = .storage c := by
  cases k <;> cases c <;> rfl

/-- **C70, databases.** For every call on a database handle of a client, asynchronous or blocking, the
server makes the same call with the same arguments on the database of that name. -/
theorem C70_same_database_call {C : Codec F} (hC : C.Lawful) (cfg : Config) (k : Kind) (sid : Option Nat)
    (db : String) (c : DbCall F) :
    serve C (handlers cfg.features cfg.custom) (send C sid (k.database db c)) =
      .ok (some (.database db c)) := by
  rw [serve_send hC cfg sid _ (database_registered _ _ _ _), handle_database]

/-- **C70, storage.** For every call on a client as a storage, the server makes the same call with the same
arguments on its storage (passwords compiled in, for the two calls that need them). -/
theorem C70_same_storage_call {C : Codec F} (hC : C.Lawful) (cfg : Config) (k : Kind) (sid : Option Nat)
    (c : StCall)
    (hp : ((∃ x, c = .authenticate x) ∨ ∃ u p, c = .setUserPassword u p) → cfg.features.passwords = true) :
    serve C (handlers cfg.features cfg.custom) (send C sid (k.storage c)) = .ok (some (.storage c)) := by
  rw [serve_send hC cfg sid _ ?_, handle_storage]
  apply C70_registered
  intro h
  apply hp
  cases k <;> cases c <;> simp [Kind.storage, asyncStorage, blockingStorage] at h ⊢

/-- **C70, subscribers.** A subscriber's calls reach the subscriber of that id with the same topic. -/
theorem C70_same_subscriber_call {C : Codec F} (hC : C.Lawful) (cfg : Config) (sid : Option Nat)
    (db : String) (id : Nat) (c : SubCall) :
    serve C (handlers cfg.features cfg.custom) (send C sid (subscriber db id c)) =
      .ok (some (match c with
        | .subscribeTo t => .subscribeById id t
        | .unsubscribeFrom t => .unsubscribeById id t
        | .drop => .unregisterById id)) := by
  rw [serve_send hC cfg sid _ ?_]
  · cases c <;> rfl
  · apply C70_registered
    cases c <;> simp [subscriber]

/-! ## The session -/

/-- The session a request runs with: without a session id, or with one the connection does not know, the
default one; with the id of a session of the connection, that one. -/
theorem C70_session (sessions : List (Nat × Sess)) (default : Sess) :
    lookup sessions default none = default ∧
    (∀ i, (∀ s, (i, s) ∉ sessions) → lookup sessions default (some i) = default) ∧
    (∀ i s, (i, s) ∈ sessions → (∀ s', (i, s') ∈ sessions → s' = s) →
      lookup sessions default (some i) = s) := by
  refine ⟨rfl, fun i hi => ?_, fun i s hs hu => ?_⟩
  · unfold lookup
    simp only
    cases hf : sessions.find? fun p => decide (p.1 = i) with
    | none => rfl
    | some p =>
      have h1 := List.mem_of_find?_eq_some hf
      have h2 := List.find?_some hf
      simp only [decide_eq_true_eq] at h2
      subst h2
      exact absurd h1 (hi p.2)
  · unfold lookup
    simp only
    cases hf : sessions.find? fun p => decide (p.1 = i) with
    | none =>
      rw [List.find?_eq_none] at hf
      exact absurd (by simp) (hf _ hs)
    | some p =>
      have h1 := List.mem_of_find?_eq_some hf
      have h2 := List.find?_some hf
      simp only [decide_eq_true_eq] at h2
      subst h2
      exact hu p.2 h1

/-! ## What comes back -/

theorem guarded_ok {α : Type} {sess : Sess} {w : World F} {r : Resource} {a : Act}
    {x : Except Access.Err α × World F} {v : α} (h : (guarded sess w r a x).1 = .ok v) : x.1 = .ok v := by
  unfold guarded at h
  split at h
  · exact h
  · cases h

theorem respond_ok {α : Type} {f : α → Response F} {r : Except Access.Err α × World F} {v : Response F}
    (h : (respond f r).1 = .ok v) : ∃ a, v = f a := by
  unfold respond at h
  split at h
  · exact ⟨_, (Except.ok.inj h).symm⟩
  · cases h

/-- A call answers with a value of the type its request asks for. -/
theorem call_answers [KV.FloatOps F] {s : Schema} {db : String} {sess : Sess} {w : World F} {env : Env}
    (k : Kind) {c : DbCall F} {v : Response F} (h : (asyncCall s db sess w env c).1 = .ok v) :
    (k.database db c).1.Answers v := by
  have key : ∀ a : Api, (k.database db c).1 = a → a.Answers v → (k.database db c).1.Answers v :=
    fun a e ha => e ▸ ha
  have lift : (asyncDatabase db c).1 = (k.database db c).1 := by cases k <;> cases c <;> rfl
  rw [← lift]
  clear key lift
  cases c <;> simp only [asyncCall, asyncLastTransactionId, DbCall.request, perform, asyncDatabase] at h ⊢
  case lastTransactionId => cases h; exact rfl
  case executeKeyOperation ns key command =>
    have h := guarded_ok h
    split at h <;> cases h
    exact rfl
  case publishBytesToAll =>
    split at h <;> cases h
    simp [Api.Answers]
  all_goals first
    | (obtain ⟨x, rfl⟩ := respond_ok h; simp [Api.Answers]; done)
    | (have h := guarded_ok h; cases h; simp [Api.Answers]; done)

/-- What the server answers is what the caller gets. -/
theorem receive_answer {C : Codec F} (hC : C.Lawful) (a : Api) (r : Except Err (Response F))
    (hr : ∀ v, r = .ok v → a.Answers v) : receive C a (answer C r) = r := by
  cases r with
  | error e => rfl
  | ok v => simp only [receive, answer, hC.result a v (hr v rfl)]

theorem process_database [KV.FloatOps F] {C : Codec F} (hC : C.Lawful) (cfg : Config)
    (sessions : List (Nat × Sess)) (default : Sess) (k : Kind) (sid : Option Nat) (db : String) (env : Env)
    (c : DbCall F) (h : Host F) :
    h.process C cfg sessions default env (send C sid (k.database db c)) =
      (answer C (h.invoke db (lookup sessions default sid) env c).1,
        (h.invoke db (lookup sessions default sid) env c).2) := by
  unfold Host.process
  rw [C70_same_database_call hC]
  rfl

theorem invoke_answers [KV.FloatOps F] {h : Host F} {db : String} {sess : Sess} {env : Env} (k : Kind)
    {c : DbCall F} {v : Response F} (hv : (h.invoke db sess env c).1 = .ok v) :
    (k.database db c).1.Answers v := by
  unfold Host.invoke at hv
  split at hv
  · cases hv
  · rename_i s w _
    simp only [Host.after] at hv
    split at hv
    · rename_i x hx
      cases hv
      exact call_answers k hx
    · cases hv

/-- The handle of the server's process makes the same call as the asynchronous one, but for the last
transaction id. -/
theorem invoke_local [KV.FloatOps F] (h : Host F) (db : String) (sess : Sess) (env : Env) (c : DbCall F)
    (hl : c = .lastTransactionId → sess.allows (.database db) .getLastId = true) :
    h.invoke db sess env c = localCall h db sess env c := by
  unfold Host.invoke localCall
  cases hd : h db with
  | none => rfl
  | some p =>
    obtain ⟨s, w⟩ := p
    show h.after db s (asyncCall s db sess w env c) = h.after db s (perform s db sess w (c.request env))
    congr 1
    cases c <;> try rfl
    simp only [asyncCall, asyncLastTransactionId, DbCall.request, perform, guarded]
    rw [hl rfl]
    rfl

/-- **C70.** An answered call through a client's handle of a database, asynchronous or blocking, returns
the value or the error the same call returns in the server's process on the database of that name with
the session the client presented (the default one if it presented none the connection knows), and leaves
all databases as that call does. The last transaction id: if the session may read it. -/
theorem C70_remote_is_local_partial [KV.FloatOps F] {C : Codec F} (hC : C.Lawful) (cfg : Config)
    (sessions : List (Nat × Sess)) (default : Sess) (k : Kind) (sid : Option Nat) (db : String) (env : Env)
    (c : DbCall F) (h h' : Host F) (r : Except Err (Response F))
    (hl : c = .lastTransactionId →
      (lookup sessions default sid).allows (.database db) .getLastId = true)
    (hc : RemoteCall C cfg sessions default k sid db env c h r h') :
    (r, h') = localCall h db (lookup sessions default sid) env c ∨
      ((r = .error .timeout ∨ r = .error .disconnected) ∧
        (h' = h ∨ h' = (localCall h db (lookup sessions default sid) env c).2)) := by
  cases hc with
  | answered =>
    left
    rw [process_database hC, invoke_local _ _ _ _ _ hl]
    rw [receive_answer hC _ _ ?_]
    intro v hv
    rw [← invoke_local _ _ _ _ _ hl] at hv
    exact invoke_answers k hv
  | lostBefore e he =>
    right
    refine ⟨?_, .inl rfl⟩
    rcases he with rfl | rfl <;> simp
  | lostAfter e he =>
    right
    refine ⟨?_, .inr ?_⟩
    · rcases he with rfl | rfl <;> simp
    · rw [process_database hC, invoke_local _ _ _ _ _ hl]

/-- Only the database that is named is touched. -/
theorem C70_only_named_database [KV.FloatOps F] {C : Codec F} (hC : C.Lawful) (cfg : Config)
    (sessions : List (Nat × Sess)) (default : Sess) (k : Kind) (sid : Option Nat) (db : String) (env : Env)
    (c : DbCall F) (h h' : Host F) (r : Except Err (Response F))
    (hc : RemoteCall C cfg sessions default k sid db env c h r h') (n : String) (hn : n ≠ db) :
    h' n = h n := by
  have key : (h.invoke db (lookup sessions default sid) env c).2 n = h n := by
    unfold Host.invoke
    split
    · rfl
    · simp [Host.after, Host.put, hn]
  cases hc with
  | answered => rw [process_database hC]; exact key
  | lostBefore => rfl
  | lostAfter => rw [process_database hC]; exact key

/-- Blocking and asynchronous handles send the same requests. -/
theorem C70_blocking_is_async (db : String) (c : DbCall F) (st : StCall) :
    Kind.blocking.database db c = Kind.async.database db c ∧
    Kind.blocking.storage (F := F) st = Kind.async.storage st := by
  constructor
  · cases c <;> rfl
  · cases st <;> rfl

/-! ## Violations -/

/-- **C70 violated.** A client whose session may not read the last transaction id gets it; in the server's
process the same session is denied. -/
theorem C70_violated_last_transaction_id [KV.FloatOps F] {C : Codec F} (hC : C.Lawful) (cfg : Config)
    (sessions : List (Nat × Sess)) (default : Sess) (k : Kind) (sid : Option Nat) (db : String) (env : Env)
    (h : Host F) (s : Schema) (w : World F) (hd : h db = some (s, w))
    (hno : (lookup sessions default sid).allows (.database db) .getLastId = false) :
    (∃ h', RemoteCall C cfg sessions default k sid db env .lastTransactionId h
      (.ok (.lastId (w.db.log.getLast?.map (·.1)))) h') ∧
    (localCall h db (lookup sessions default sid) env .lastTransactionId).1 =
      .error (.database .permissionDenied) := by
  constructor
  · have := RemoteCall.answered (C := C) (cfg := cfg) (sessions := sessions) (default := default) (k := k)
      (sid := sid) (db := db) (env := env) (c := .lastTransactionId) (h := h)
    rw [process_database hC, receive_answer hC _ _ (fun v hv => invoke_answers k hv)] at this
    unfold Host.invoke at this
    rw [hd] at this
    exact ⟨_, this⟩
  · unfold localCall
    rw [hd]
    simp only [DbCall.request, perform, guarded, hno, Host.after]
    rfl

/-- **C70 violated.** The last transaction id, without a condition on the session, is not what the same call
in the server's process gives. -/
theorem C70_violated_remote_is_local [KV.FloatOps F] {C : Codec F} (hC : C.Lawful) (cfg : Config)
    (k : Kind) (db : String) (env : Env) (h : Host F) (s : Schema) (w : World F) (hd : h db = some (s, w))
    (default : Sess) (hno : default.allows (.database db) .getLastId = false) :
    ¬ ∀ r h', RemoteCall C cfg [] default k none db env .lastTransactionId h r h' →
      (r, h') = localCall h db default env .lastTransactionId ∨
        r = .error .timeout ∨ r = .error .disconnected := by
  intro hall
  obtain ⟨⟨h', hr⟩, hl⟩ := C70_violated_last_transaction_id hC cfg [] default k none db env h s w hd hno
  rcases hall _ _ hr with e | e | e
  · have := congrArg Prod.fst e
    rw [show (localCall h db default env .lastTransactionId).1 = _ from hl] at this
    cases this
  · cases e
  · cases e

/-- **C70 violated.** A server compiled with tokens but without passwords knows how to authenticate a token
(`authenticate` of its storage), but a client's call is answered with "API not found". -/
theorem C70_violated_token_only {C : Codec F} (k : Kind) (sid : Option Nat) (custom : List ApiName)
    (hcustom : Api.apiName .authenticate ∉ custom) (x : Authentication) :
    serve C (handlers ⟨false, true⟩ custom) (send C sid (k.storage (.authenticate x))) =
      .error (.apiNotFound ("bonsaidb", "Authenticate")) := by
  have hq : (k.storage (F := F) (.authenticate x)).1 = .authenticate := by cases k <;> rfl
  unfold serve send
  simp only [hq]
  have : findHandler (handlers ⟨false, true⟩ custom) (Api.apiName .authenticate) = none := by
    unfold findHandler
    rw [Option.map_eq_none_iff, List.find?_eq_none]
    intro p hp
    rw [List.mem_reverse] at hp
    simp only [decide_eq_true_eq]
    intro e
    rcases List.mem_append.1 hp with h | h
    · obtain ⟨n, hn, rfl⟩ := List.mem_map.1 h
      exact hcustom (e ▸ hn)
    · obtain ⟨a, ha, rfl⟩ := List.mem_map.1 h
      have : a = .authenticate := C70_names_distinct _ _ (Prod.mk.inj e).2
      subst this
      simp [builtin] at ha
  rw [this]
  rfl

/-- A caller told that its time was up may have had its call carried out. -/
theorem C70_timeout_may_have_executed [KV.FloatOps F] {C : Codec F} (hC : C.Lawful) (cfg : Config)
    (sessions : List (Nat × Sess)) (default : Sess) (k : Kind) (sid : Option Nat) (db : String) (env : Env)
    (c : DbCall F) (h : Host F)
    (hl : c = .lastTransactionId →
      (lookup sessions default sid).allows (.database db) .getLastId = true) :
    RemoteCall C cfg sessions default k sid db env c h (.error .timeout)
      (localCall h db (lookup sessions default sid) env c).2 := by
  have := RemoteCall.lostAfter (C := C) (cfg := cfg) (sessions := sessions) (default := default) (k := k)
    (sid := sid) (db := db) (env := env) (c := c) (h := h) .timeout (.inl rfl)
  rw [process_database hC, invoke_local _ _ _ _ _ hl] at this
  exact this

/-- A handler the backend registers under a name of BonsaiDb is never called. -/
theorem C70_violated_custom_shadowed (f : Features) (custom : List ApiName) (a : Api)
    (ha : a ∈ builtin f) : findHandler (handlers f (custom ++ [a.apiName])) a.apiName ≠ some none := by
  rw [C70_own_handler _ _ _ ha]
  simp

end Bonsai.Wire
