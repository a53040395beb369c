import Verif.Wire.C70
import Verif.Access.C58d
import Mathlib.Tactic.DeriveCountable
import Mathlib.Data.Countable.Basic
import Mathlib.Logic.Equiv.List

/-!
# C70: a lawful encoding exists, and histories of calls

The hypothesis `Codec.Lawful` of the theorems of C70 can be met: all requests and results are
countably many, so there is an encoding from which everything is read back.
-/
set_option linter.unusedSimpArgs false

namespace Bonsai.Wire
open Bonsai Bonsai.Names Bonsai.Store Bonsai.Query Bonsai.Access

variable {F : Type}

instance instCountableUInt8 : Countable UInt8 :=
  Function.Injective.countable (f := UInt8.toNat) (fun _ _ h => UInt8.toNat_inj.1 h)
instance instCountableChar : Countable Char :=
  Function.Injective.countable (f := Char.toNat) (fun _ _ h => Char.toNat_inj.1 h)
instance instCountableString : Countable String :=
  Function.Injective.countable (f := String.toList) (fun _ _ h => String.toList_injective h)

deriving instance Countable for QName
deriving instance Countable for VName
deriving instance Countable for Revision
deriving instance Countable for Header
deriving instance Countable for Store.Command
deriving instance Countable for Operation
deriving instance Countable for Bound
deriving instance Countable for Query.Range
deriving instance Countable for QueryKey
deriving instance Countable for Sort'
deriving instance Countable for Access.Policy
instance instCountableUInt64 : Countable UInt64 :=
  Function.Injective.countable (f := UInt64.toNat) (fun _ _ h => UInt64.toNat_inj.1 h)
instance instCountableInt64 : Countable Int64 :=
  Function.Injective.countable (f := Int64.toInt) (fun _ _ h => Int64.toInt_inj.1 h)
deriving instance Countable for KV.Numeric
deriving instance Countable for KV.Value
deriving instance Countable for KV.Check
deriving instance Countable for KV.SetCommand
deriving instance Countable for KV.Command
deriving instance Countable for KV.Status
deriving instance Countable for KV.Output
instance instCountableId : Countable Ident.Id :=
  Function.Injective.countable (α := BitVec 64) (f := BitVec.toNat) (fun _ _ h => BitVec.toNat_inj.1 h)
deriving instance Countable for Ident.Ref
deriving instance Countable for Ident.IdentityRef
deriving instance Countable for OpResult
deriving instance Countable for Document
deriving instance Countable for Mapped
deriving instance Countable for ChangedDocument
deriving instance Countable for Changes

instance instCountableOMap {V : Type} [Countable V] : Countable (OMap V) :=
  Function.Injective.countable (f := OMap.list) (fun a b h => by cases a; cases b; cases h; rfl)

deriving instance Countable for Response
deriving instance Countable for Authentication
deriving instance Countable for CreateDatabase
deriving instance Countable for SetUserPassword
deriving instance Countable for AlterGroup
deriving instance Countable for AlterRole
deriving instance Countable for Get
deriving instance Countable for GetMultiple
deriving instance Countable for ListDocs
deriving instance Countable for Count
deriving instance Countable for Wire.Query
deriving instance Countable for Reduce
deriving instance Countable for DeleteDocs
deriving instance Countable for ApplyTransaction
deriving instance Countable for ListExecuted
deriving instance Countable for Publish
deriving instance Countable for PublishToAll
deriving instance Countable for SubscribeTo
deriving instance Countable for UnregisterSubscriber
deriving instance Countable for ExecuteKeyOperation
deriving instance Countable for CompactCollection

theorem countable_req (F : Type) [Countable F] (a : Api) : Countable (a.Req F) := by
  cases a <;> (unfold Api.Req; infer_instance)

/-- Any countable type can be written as bytes and read back. -/
theorem exists_encoding (α : Type) [Countable α] :
    ∃ (w : α → Bytes) (r : Bytes → Option α), ∀ x, r (w x) = some x := by
  obtain ⟨f, hf⟩ := exists_injective_nat α
  classical
  refine ⟨fun x => List.replicate (f x) 0,
    fun b => if h : ∃ x, f x = b.length then some h.choose else none, fun x => ?_⟩
  have h : ∃ y, f y = (List.replicate (f x) (0 : UInt8)).length := ⟨x, by simp⟩
  show (if h : ∃ y, f y = (List.replicate (f x) (0 : UInt8)).length then some h.choose else none) = some x
  rw [dif_pos h]
  have := h.choose_spec.trans (List.length_replicate (a := (0 : UInt8)))
  exact congrArg some (hf this)

/-- The hypothesis of the theorems of C70 can be met. -/
theorem exists_lawful_codec (F : Type) [Countable F] : ∃ C : Codec F, C.Lawful := by
  have hreq : ∀ a : Api, ∃ (p : (a.Req F → Bytes) × (Bytes → Option (a.Req F))),
      ∀ x, p.2 (p.1 x) = some x := by
    intro a
    have := countable_req F a
    obtain ⟨w, r, h⟩ := exists_encoding (a.Req F)
    exact ⟨(w, r), h⟩
  obtain ⟨w, r, h⟩ := exists_encoding (Response F)
  choose p hp using hreq
  exact ⟨{ request := fun a => (p a).1
           readRequest := fun a => (p a).2
           result := fun x => match x with
             | .ok v => w v
             | .error _ => []
           readResult := fun _ b => (r b).map .ok },
    ⟨hp, fun a v _ => by simp only [h, Option.map_some]⟩⟩

/-! ## Histories -/

/-- One call by a client: the handle, the session presented, the database and the call. -/
structure Call (F : Type) where
  kind : Kind
  session : Option Nat
  db : String
  env : Env
  call : DbCall F

/-- The calls of any number of clients, in the order in which the server works on them, and what each
caller got. -/
inductive Remote [KV.FloatOps F] (C : Codec F) (cfg : Config) (sessions : List (Nat × Sess))
    (default : Sess) : Host F → List (Call F × Except Err (Response F)) → Host F → Prop
  | nil (h : Host F) : Remote C cfg sessions default h [] h
  | cons {h h' h'' : Host F} {c : Call F} {r : Except Err (Response F)}
      {rest : List (Call F × Except Err (Response F))}
      (first : RemoteCall C cfg sessions default c.kind c.session c.db c.env c.call h r h')
      (next : Remote C cfg sessions default h' rest h'') :
      Remote C cfg sessions default h ((c, r) :: rest) h''

/-- Calls in the server's process: some of them are left out (`none`), all others give what they give. -/
inductive Locally [KV.FloatOps F] (sessions : List (Nat × Sess)) (default : Sess) :
    Host F → List (Call F × Option (Except Err (Response F))) → Host F → Prop
  | nil (h : Host F) : Locally sessions default h [] h
  | skip {h h' : Host F} (c : Call F) {rest : List (Call F × Option (Except Err (Response F)))}
      (next : Locally sessions default h rest h') :
      Locally sessions default h ((c, none) :: rest) h'
  | call {h h' : Host F} (c : Call F) {rest : List (Call F × Option (Except Err (Response F)))}
      (next : Locally sessions default
        (localCall h c.db (lookup sessions default c.session) c.env c.call).2 rest h') :
      Locally sessions default h
        ((c, some (localCall h c.db (lookup sessions default c.session) c.env c.call).1) :: rest) h'

/-- What a caller got agrees with what happened in the server's process. -/
def Agrees (x : Call F × Except Err (Response F)) (y : Call F × Option (Except Err (Response F))) : Prop :=
  x.1 = y.1 ∧ (some x.2 = y.2 ∨ x.2 = .error .timeout ∨ x.2 = .error .disconnected)

/-- **C70, histories.** Every history of calls through clients is a history of the same calls in the
server's process: the databases go through the same states, each caller that was answered got what its
call gave there, and the calls of the others were made once or not at all. -/
theorem C70_history_partial [KV.FloatOps F] {C : Codec F} (hC : C.Lawful) (cfg : Config)
    (sessions : List (Nat × Sess)) (default : Sess) {h h' : Host F}
    {cs : List (Call F × Except Err (Response F))}
    (hl : ∀ x ∈ cs, x.1.call = .lastTransactionId →
      (lookup sessions default x.1.session).allows (.database x.1.db) .getLastId = true)
    (hr : Remote C cfg sessions default h cs h') :
    ∃ ls, Locally sessions default h ls h' ∧ List.Forall₂ Agrees cs ls := by
  induction hr with
  | nil h => exact ⟨[], .nil h, .nil⟩
  | @cons h h₁ h₂ c r rest first next ih =>
    obtain ⟨ls, hls, hag⟩ := ih fun x hx => hl x (List.mem_cons_of_mem _ hx)
    have := C70_remote_is_local_partial hC cfg sessions default c.kind c.session c.db c.env c.call h h₁ r
      (hl (c, r) (List.mem_cons_self ..)) first
    rcases this with e | ⟨hn, e | e⟩
    · have e1 : r = _ := congrArg Prod.fst e
      have e2 : h₁ = _ := congrArg Prod.snd e
      subst e1 e2
      exact ⟨_, .call c hls, .cons ⟨rfl, .inl rfl⟩ hag⟩
    · subst e
      exact ⟨_, .skip c hls, .cons ⟨rfl, .inr hn⟩ hag⟩
    · subst e
      exact ⟨_, .call c hls, .cons ⟨rfl, .inr hn⟩ hag⟩

/-! ## A concrete case -/

/-- A server with one database `"db"`, empty. -/
def exHost (kv : KV.St F) : Host F := fun n => if n = "db" then some (exWith exLazy, fresh kv) else none

/-- A client that logged in as session 7 — it may insert into the collection and do nothing else — inserts
two documents with a blocking handle and then asks for one of them with an asynchronous one: the first call
is answered with the results of the insertions, the second with an error, and the documents are there. A
call on a database that does not exist gives the error the server's process gives. -/
example [KV.FloatOps F] {C : Codec F} (hC : C.Lawful) (cfg : Config) (env : Env) (kv : KV.St F) :
    ∃ (rs : List OpResult) (h' : Host F) (s : Schema) (w : World F) (d : Document),
      Remote C cfg [(7, only [(.collection "db" exC, .insert)])] (only []) (exHost kv)
        [(⟨.blocking, some 7, "db", env, .applyTransaction exInsertTwo⟩, .ok (.results rs)),
         (⟨.async, some 7, "db", env, .getFromCollection [7] exC⟩, .error (.database .permissionDenied)),
         (⟨.async, some 7, "other", env, .compact⟩, .error (.databaseNotFound "other"))] h' ∧
      rs.length = 2 ∧ h' "db" = some (s, w) ∧ getDoc w.db exC [7] = some d := by
  have step := fun (k : Kind) (db : String) (c : DbCall F) (h : Host F) =>
    RemoteCall.answered (C := C) (cfg := cfg) (sessions := [(7, only [(.collection "db" exC, .insert)])])
      (default := only []) (k := k) (sid := some 7) (db := db) (env := env) (c := c) (h := h)
  have step' : ∀ (k : Kind) (db : String) (c : DbCall F) (h : Host F), _ := fun k db c h => by
    have := step k db c h
    rw [process_database hC, receive_answer hC _ _ (fun v hv => invoke_answers k hv)] at this
    exact this
  exact ⟨_, _, _, _, _, .cons (step' .blocking "db" (.applyTransaction exInsertTwo) (exHost kv))
    (.cons (step' .async "db" (.getFromCollection [7] exC) _)
      (.cons (step' .async "other" .compact _) (.nil _))), by decide, rfl, rfl⟩

/-- The hypotheses of the violations can be met: the default session may do nothing, the database exists. -/
example (kv : KV.St F) : (exHost kv "db" = some (exWith exLazy, fresh kv)) ∧
    (lookup [] (only []) none).allows (.database "db") .getLastId = false ∧
    Api.apiName .authenticate ∉ [("example", "ping")] := ⟨rfl, rfl, by decide⟩

end Bonsai.Wire
