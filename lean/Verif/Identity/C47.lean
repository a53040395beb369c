import Verif.Identity.Model

/-!
# C47: adding and removing a user's roles and groups are inverse and idempotent
-/
set_option linter.unusedSimpArgs false
set_option linter.unusedSectionVars false

namespace Bonsai.Ident
open Bonsai Bonsai.Names

/-! ## Specification -/

/-- What a user belongs to: which group ids, which role ids. -/
structure Memberships where
  groups : Id → Prop
  roles : Id → Prop

/-- The memberships after an operation on group or role `x`. -/
def UserOp.spec (op : UserOp) (x : Id) (m : Memberships) : Memberships :=
  match op with
  | .addGroup => ⟨fun i => m.groups i ∨ i = x, m.roles⟩
  | .removeGroup => ⟨fun i => m.groups i ∧ i ≠ x, m.roles⟩
  | .addRole => ⟨m.groups, fun i => m.roles i ∨ i = x⟩
  | .removeRole => ⟨m.groups, fun i => m.roles i ∧ i ≠ x⟩

/-- What the users of a storage belong to. -/
def Adm.memberships (adm : Adm) (uid : Id) : Option Memberships :=
  (adm.users.get uid).map fun d => ⟨fun i => i ∈ d.contents.groups, fun i => i ∈ d.contents.roles⟩

/-- What a caller, or somebody watching all callers, sees of one step. -/
inductive Outcome where
  /-- an operation on user `uid` and group or role `x` returned `Ok` -/
  | done (op : UserOp) (uid x : Id)
  /-- an operation returned an error -/
  | failed
  | created (uid : Id)
  | deleted (uid : Id)
  /-- nobody returned -/
  | silent

/-- The effect of one step on everybody's memberships. -/
def Outcome.spec (o : Outcome) (M : Id → Option Memberships) : Id → Option Memberships :=
  match o with
  | .done op uid x => fun i => if i = uid then (M i).map (op.spec x) else M i
  | .created uid => fun i => if i = uid then some ⟨fun _ => False, fun _ => False⟩ else M i
  | .deleted uid => fun i => if i = uid then none else M i
  | _ => M

/-! ## Concurrent callers -/

/-- A caller between loading the user and updating it. -/
structure Pending where
  op : UserOp
  uid : Id
  doc : Doc User
  x : Id

structure Sys where
  adm : Adm
  pending : List Pending

/-- One step of any caller. `h` is the caller's handle (storage.rs:1398-1478; unrestricted ones are
`Handle.local`). -/
inductive Step : Sys → Outcome → Sys → Prop
  /-- The user or the group or role was not found. -/
  | notFound {σ op u o e} (hl : loadFor σ.adm op u o = .error e) : Step σ .failed σ
  | denied {σ op u o uid d x} (h : Handle) (hl : loadFor σ.adm op u o = .ok (uid, d, x))
      (hp : h.allowed (.user uid) op.action = false) : Step σ .failed σ
  /-- Nothing to change. -/
  | noChange {σ op u o uid d x} (h : Handle) (hl : loadFor σ.adm op u o = .ok (uid, d, x))
      (hp : h.allowed (.user uid) op.action = true) (hc : (op.apply x d.contents).2 = false) :
      Step σ (.done op uid x) σ
  | loaded {σ op u o uid d x} (h : Handle) (hl : loadFor σ.adm op u o = .ok (uid, d, x))
      (hp : h.allowed (.user uid) op.action = true) (hc : (op.apply x d.contents).2 = true) :
      Step σ .silent ⟨σ.adm, σ.pending ++ [⟨op, uid, d, x⟩]⟩
  | commit {σ pre post p adm} (hp : σ.pending = pre ++ p :: post)
      (hu : updateUser σ.adm p.uid p.doc (p.op.apply p.x p.doc.contents).1 = .ok adm) :
      Step σ (.done p.op p.uid p.x) ⟨adm, pre ++ post⟩
  | conflict {σ pre post p e} (hp : σ.pending = pre ++ p :: post)
      (hu : updateUser σ.adm p.uid p.doc (p.op.apply p.x p.doc.contents).1 = .error e) :
      Step σ .failed ⟨σ.adm, pre ++ post⟩
  | create {σ uid name adm} (hc : createUser σ.adm uid name = .ok adm) : Step σ (.created uid) ⟨adm, σ.pending⟩
  /-- `delete_user`, storage.rs:1085-1095. -/
  | delete {σ uid} : Step σ (.deleted uid) ⟨{ σ.adm with users := σ.adm.users.del uid }, σ.pending⟩
  /-- `set_user_password`, storage.rs:1097-1108. -/
  | password {σ uid d hash} (hg : σ.adm.users.get uid = some d) :
      Step σ .silent ⟨{ σ.adm with users := σ.adm.users.put uid ⟨d.rev + 1, { d.contents with argonHash := hash }⟩ },
        σ.pending⟩
  /-- Groups and roles are created, changed, deleted. -/
  | records {σ groups roles} : Step σ .silent ⟨{ σ.adm with groups := groups, roles := roles }, σ.pending⟩

inductive Run : Sys → List Outcome → Sys → Prop
  | nil (σ) : Run σ [] σ
  | snoc {σ σ' σ'' os o} (h : Run σ os σ') (hs : Step σ' o σ'') : Run σ (os ++ [o]) σ''

/-- Document ids are unique (C21). -/
def Ids {α : Type} (c : Coll α) : Prop := (c.map (·.1)).Nodup

/-! ## Lemmas -/

theorem get_put_self {α : Type} {c : Coll α} {uid : Id} {d : Doc α} (h : (c.get uid).isSome) :
    (c.put uid d).get uid = some d := by
  induction c with
  | nil => simp [Coll.get] at h
  | cons p ps ih =>
    by_cases hp : p.1 = uid
    · simp [Coll.get, Coll.put, hp]
    · have h' : (Coll.get ps uid).isSome := by simpa [Coll.get, List.find?_cons, hp] using h
      have := ih h'
      simpa [Coll.get, Coll.put, List.find?_cons, hp] using this

theorem get_put_ne {α : Type} {c : Coll α} {uid i : Id} {d : Doc α} (h : i ≠ uid) :
    (c.put uid d).get i = c.get i := by
  induction c with
  | nil => rfl
  | cons p ps ih =>
    have ih' : (Coll.put ps uid d).get i = Coll.get ps i := ih
    simp only [Coll.get, Coll.put, List.map_cons, List.find?_cons] at ih' ⊢
    by_cases hp : p.1 = uid
    · have h1 : ¬ uid = i := fun e => h e.symm
      have h2 : ¬ p.1 = i := fun e => h (e.symm.trans hp)
      simp only [hp, if_true, beq_eq_false_iff_ne.mpr h1]
      exact ih'
    · simp only [hp, if_false]
      by_cases hi : p.1 = i
      · simp [hi]
      · simp only [beq_eq_false_iff_ne.mpr hi]
        exact ih'

theorem get_del_self {α : Type} {c : Coll α} {uid : Id} : (c.del uid).get uid = none := by
  unfold Coll.get Coll.del
  simp [List.find?_filter]

theorem get_del_ne {α : Type} {c : Coll α} {uid i : Id} (h : i ≠ uid) : (c.del uid).get i = c.get i := by
  induction c with
  | nil => rfl
  | cons p ps ih =>
    have ih' : (Coll.del ps uid).get i = Coll.get ps i := ih
    simp only [Coll.get, Coll.del, List.filter_cons, List.find?_cons] at ih' ⊢
    by_cases hp : p.1 = uid
    · have h2 : ¬ p.1 = i := fun e => h (e.symm.trans hp)
      simp only [hp, ne_eq, not_true_eq_false, decide_false, Bool.false_eq_true, if_false]
      rw [← hp, beq_eq_false_iff_ne.mpr h2, hp]
      exact ih'
    · simp only [hp, ne_eq, not_false_eq_true, decide_true, if_true, List.find?_cons]
      by_cases hi : p.1 = i
      · simp [hi]
      · simp only [beq_eq_false_iff_ne.mpr hi]
        exact ih'

theorem get_append_ne {α : Type} {c : Coll α} {uid i : Id} {d : Doc α} (h : i ≠ uid) :
    Coll.get (c ++ [(uid, d)]) i = Coll.get c i := by
  have : ¬ uid = i := fun e => h e.symm
  simp [Coll.get, List.find?_append, this]

theorem get_append_self {α : Type} {c : Coll α} {uid : Id} {d : Doc α} (h : c.get uid = none) :
    Coll.get (c ++ [(uid, d)]) uid = some d := by
  unfold Coll.get at h ⊢
  rw [Option.map_eq_none_iff] at h
  rw [List.find?_append, h]
  simp

/-- An operation on a user's record does what it says on the memberships, and reports whether it
changed anything. -/
theorem apply_spec (op : UserOp) (x : Id) (u : User) :
    (⟨fun i => i ∈ (op.apply x u).1.groups, fun i => i ∈ (op.apply x u).1.roles⟩ : Memberships) =
      op.spec x ⟨fun i => i ∈ u.groups, fun i => i ∈ u.roles⟩ ∧
    ((op.apply x u).2 = false → (op.apply x u).1 = u) ∧
    (op.apply x u).1.username = u.username ∧ (op.apply x u).1.argonHash = u.argonHash := by
  have hf : ∀ l : List Id, (l.length != (l.filter fun i => i ≠ x).length) = false →
      l.filter (fun i => i ≠ x) = l := by
    intro l h
    have : l.length = (l.filter fun i => i ≠ x).length := by simpa using h
    exact List.filter_eq_self.mpr (List.length_filter_eq_length_iff.mp this.symm)
  cases op with
  | addGroup =>
    by_cases h : x ∈ u.groups
    · simp only [UserOp.apply, UserOp.spec, List.contains_iff_mem, h, if_true]
      refine ⟨?_, fun _ => by simp, by simp, by simp⟩
      simp only [Memberships.mk.injEq, and_true]
      funext i
      exact propext ⟨.inl, fun hi => hi.elim id (fun e => e ▸ h)⟩
    · simp only [UserOp.apply, UserOp.spec, List.contains_iff_mem, h, if_false]
      simp
  | addRole =>
    by_cases h : x ∈ u.roles
    · simp only [UserOp.apply, UserOp.spec, List.contains_iff_mem, h, if_true]
      refine ⟨?_, fun _ => by simp, by simp, by simp⟩
      simp only [Memberships.mk.injEq, true_and]
      funext i
      exact propext ⟨.inl, fun hi => hi.elim id (fun e => e ▸ h)⟩
    · simp only [UserOp.apply, UserOp.spec, List.contains_iff_mem, h, if_false]
      simp
  | removeGroup =>
    refine ⟨by simp [UserOp.apply, UserOp.spec], ?_, rfl, rfl⟩
    intro h
    simp only [UserOp.apply] at h ⊢
    rw [hf _ h]
  | removeRole =>
    refine ⟨by simp [UserOp.apply, UserOp.spec], ?_, rfl, rfl⟩
    intro h
    simp only [UserOp.apply] at h ⊢
    rw [hf _ h]

theorem load_get {r : Ref} {c : Coll User} {uid : Id} {d : Doc User}
    (h : r.load User.username c = .ok (some (uid, d))) : c.get uid = some d := by
  unfold Ref.load at h
  split at h
  · cases h
  · cases h
  · rename_i k hk
    cases hg : c.get k with
    | none => simp [hg] at h
    | some d' =>
      simp only [hg, Option.map_some, Except.ok.injEq, Option.some.injEq, Prod.mk.injEq] at h
      obtain ⟨rfl, rfl⟩ := h
      exact hg

theorem loadFor_get {adm : Adm} {op : UserOp} {u o : Ref} {uid x : Id} {d : Doc User}
    (h : loadFor adm op u o = .ok (uid, d, x)) : adm.users.get uid = some d ∧
      op.resolveIn adm o = .ok (some x) := by
  unfold loadFor at h
  split at h
  · cases h
  · rename_i lu hu
    split at h
    · cases h
    · rename_i lo ho
      split at h
      · rename_i uid' d' x'
        simp only [Except.ok.injEq, Prod.mk.injEq] at h
        obtain ⟨rfl, rfl, rfl⟩ := h
        exact ⟨load_get hu, ho⟩
      · cases h

theorem memberships_put {adm : Adm} {uid : Id} {d d' : Doc User} (hg : adm.users.get uid = some d) (i : Id) :
    Adm.memberships { adm with users := adm.users.put uid d' } i =
      if i = uid then some ⟨fun g => g ∈ d'.contents.groups, fun g => g ∈ d'.contents.roles⟩
      else adm.memberships i := by
  unfold Adm.memberships
  by_cases h : i = uid
  · subst h
    simp [get_put_self (d := d') (by rw [hg]; rfl : (adm.users.get i).isSome)]
  · simp [get_put_ne h, h]

/-- What one step does to the memberships is exactly what its outcome says. -/
theorem step_memberships {σ σ' : Sys} {o : Outcome} (h : Step σ o σ') :
    σ'.adm.memberships = o.spec σ.adm.memberships := by
  cases h with
  | notFound => rfl
  | denied => rfl
  | @noChange op u o uid d x h hl hp hc =>
    funext i
    simp only [Outcome.spec]
    by_cases hi : i = uid
    · subst hi
      have hg := (loadFor_get hl).1
      obtain ⟨h1, h2, -⟩ := apply_spec op x d.contents
      rw [h2 hc] at h1
      simp [Adm.memberships, hg, ← h1]
    · simp [hi]
  | loaded => rfl
  | @commit pre post p adm hp hu =>
    unfold updateUser at hu
    split at hu
    · cases hu
    · rename_i d hg
      split at hu
      · rename_i heq
        cases hu
        funext i
        show Adm.memberships { σ.adm with users := σ.adm.users.put p.uid _ } i = _
        rw [memberships_put hg]
        simp only [Outcome.spec]
        by_cases hi : i = p.uid
        · subst hi
          simp only [if_true]
          rw [(apply_spec p.op p.x p.doc.contents).1]
          simp [Adm.memberships, hg, heq.2]
        · simp [hi]
      · cases hu
  | conflict => rfl
  | @create uid name adm hc =>
    unfold createUser at hc
    split at hc
    · cases hc
    · split at hc
      · cases hc
      · rename_i hn
        cases hc
        funext i
        simp only [Outcome.spec, Adm.memberships]
        by_cases hi : i = uid
        · subst hi
          rw [get_append_self (by simpa using hn)]
          simp
        · simp [get_append_ne hi, hi]
  | @delete uid =>
    funext i
    simp only [Outcome.spec, Adm.memberships]
    by_cases hi : i = uid
    · subst hi; simp [get_del_self]
    · simp [get_del_ne hi, hi]
  | @password uid d hash hg =>
    funext i
    show Adm.memberships { σ.adm with users := σ.adm.users.put uid _ } i = _
    rw [memberships_put hg]
    by_cases hi : i = uid
    · subst hi; simp [Outcome.spec, Adm.memberships, hg]
    · simp [hi, Outcome.spec]
  | records => rfl

/-! ## C47 -/

/-- **C47**: for any number of concurrent callers adding and removing groups and roles, with users
created, deleted and given passwords in between: everybody's memberships are at all times exactly the
result of the operations that have returned `Ok`, in the order in which they did, one after the other;
failed operations have no effect; no update is lost. -/
theorem C47_memberships_are_the_completed_operations (σ σ' : Sys) (os : List Outcome) (h : Run σ os σ') :
    σ'.adm.memberships = os.foldl (fun M o => o.spec M) σ.adm.memberships := by
  induction h with
  | nil => rfl
  | snoc h hs ih => rw [List.foldl_append, ← ih, List.foldl_cons, List.foldl_nil]; exact step_memberships hs

/-- **C47**: after adding, the user has exactly that group or role in addition; repeating changes
nothing; removing it afterwards gives the memberships as they were without it. -/
theorem C47_inverse_and_idempotent (x : Id) (m : Memberships) :
    (∀ op : UserOp, op.spec x (op.spec x m) = op.spec x m) ∧
    (∀ i, (UserOp.addGroup.spec x m).groups i ↔ m.groups i ∨ i = x) ∧
    (∀ i, (UserOp.addRole.spec x m).roles i ↔ m.roles i ∨ i = x) ∧
    (UserOp.addGroup.spec x m).roles = m.roles ∧ (UserOp.addRole.spec x m).groups = m.groups ∧
    (¬ m.groups x → UserOp.removeGroup.spec x (UserOp.addGroup.spec x m) = m) ∧
    (¬ m.roles x → UserOp.removeRole.spec x (UserOp.addRole.spec x m) = m) ∧
    ¬ (UserOp.removeGroup.spec x m).groups x ∧ ¬ (UserOp.removeRole.spec x m).roles x := by
  refine ⟨?_, ?_, ?_, rfl, rfl, ?_, ?_, ?_, ?_⟩
  · intro op
    cases op <;> simp only [UserOp.spec, Memberships.mk.injEq, and_true, true_and] <;> funext i <;>
      apply propext
    · exact ⟨fun h => h.elim id .inr, .inl⟩
    · exact ⟨fun h => h.1, fun h => ⟨h, h.2⟩⟩
    · exact ⟨fun h => h.elim id .inr, .inl⟩
    · exact ⟨fun h => h.1, fun h => ⟨h, h.2⟩⟩
  · intro i; exact Iff.rfl
  · intro i; exact Iff.rfl
  · intro hx
    cases m
    simp only [UserOp.spec, Memberships.mk.injEq, and_true]
    funext i
    apply propext
    exact ⟨fun h => h.1.elim id (fun e => absurd e h.2), fun h => ⟨.inl h, fun e => hx (e ▸ h)⟩⟩
  · intro hx
    cases m
    simp only [UserOp.spec, Memberships.mk.injEq, true_and]
    funext i
    apply propext
    exact ⟨fun h => h.1.elim id (fun e => absurd e h.2), fun h => ⟨.inl h, fun e => hx (e ▸ h)⟩⟩
  · exact fun h => h.2 rfl
  · exact fun h => h.2 rfl

/-- A caller that nobody disturbs: load, check, change, update. -/
def call (adm : Adm) (h : Handle) (op : UserOp) (u o : Ref) : Except Err Adm :=
  match loadFor adm op u o with
  | .error e => .error e
  | .ok (uid, d, x) =>
    if h.allowed (.user uid) op.action then
      if (op.apply x d.contents).2 then updateUser adm uid d (op.apply x d.contents).1 else .ok adm
    else .error .permissionDenied

/-- **C47**: undisturbed, an operation succeeds iff the user exists, the reference resolves and the caller
is allowed; then it does what it says to this user and nothing to others, and groups and roles
themselves are not changed. -/
theorem C47_undisturbed (adm : Adm) (h : Handle) (op : UserOp) (u o : Ref) (uid x : Id) (d : Doc User)
    (hu : u.load User.username adm.users = .ok (some (uid, d))) (ho : op.resolveIn adm o = .ok (some x))
    (hp : h.allowed (.user uid) op.action = true) :
    ∃ adm', call adm h op u o = .ok adm' ∧
      (∃ m, adm.memberships uid = some m ∧ adm'.memberships uid = some (op.spec x m)) ∧
      (∀ i, i ≠ uid → adm'.memberships i = adm.memberships i) ∧
      adm'.groups = adm.groups ∧ adm'.roles = adm.roles := by
  have hl : loadFor adm op u o = .ok (uid, d, x) := by simp [loadFor, hu, ho]
  have hg := load_get hu
  obtain ⟨h1, h2, -⟩ := apply_spec op x d.contents
  have hm : adm.memberships uid = some ⟨fun i => i ∈ d.contents.groups, fun i => i ∈ d.contents.roles⟩ := by
    simp [Adm.memberships, hg]
  simp only [call, hl, hp, if_true]
  cases hc : (op.apply x d.contents).2 with
  | false =>
    refine ⟨adm, by simp, ⟨_, hm, ?_⟩, fun _ _ => rfl, rfl, rfl⟩
    rw [← h1, h2 hc, hm]
  | true =>
    refine ⟨{ adm with users := adm.users.put uid ⟨d.rev + 1, (op.apply x d.contents).1⟩ },
      by simp [updateUser, hg], ⟨_, hm, ?_⟩, fun i hi => ?_, rfl, rfl⟩
    · rw [memberships_put hg]
      simp [h1]
    · rw [memberships_put hg]
      simp [hi]

/-- A record denoted by a reference: by its name, or directly by its id. -/
def Denotes {α : Type} (nameOf : α → String) (c : Coll α) (r : Ref) (x : Id) : Prop :=
  (∃ n, r = .name n ∧ c.named nameOf n = some x) ∨ r = .key x ∨ r = .id (id8 x)

theorem resolve_denotes {α : Type} {nameOf : α → String} {c : Coll α} {r : Ref} {x : Id}
    (h : Denotes nameOf c r x) : r.resolve nameOf c = .ok (some x) := by
  rcases h with ⟨n, rfl, hn⟩ | rfl | rfl
  · simp [Ref.resolve, hn]
  · rfl
  · have hx : x.toNat < 256 ^ 8 := by have := x.isLt; omega
    simp only [Ref.resolve, id8, toBE_length, if_true, Except.ok.injEq, Option.some.injEq]
    rw [fromBE_toBE hx]
    simp

/-- **C47** (partial): the right kind of record is used: group references denote groups; when removing,
role references denote roles. (Missing: adding a role by *name*, see `C47_violated_add_role_by_name`;
adding a role by id works.) -/
theorem C47_right_kind_partial (adm : Adm) (r : Ref) (x : Id) :
    (Denotes Group.name adm.groups r x → UserOp.addGroup.resolveIn adm r = .ok (some x)) ∧
    (Denotes Group.name adm.groups r x → UserOp.removeGroup.resolveIn adm r = .ok (some x)) ∧
    (Denotes Role.name adm.roles r x → UserOp.removeRole.resolveIn adm r = .ok (some x)) ∧
    ((∀ n, r ≠ .name n) → Denotes Role.name adm.roles r x → UserOp.addRole.resolveIn adm r = .ok (some x)) := by
  refine ⟨resolve_denotes, resolve_denotes, resolve_denotes, ?_⟩
  intro hn h
  rcases h with ⟨n, rfl, -⟩ | h
  · exact absurd rfl (hn n)
  · exact resolve_denotes (.inr h)

section Example

def exAdmin : Adm where
  users := [(1#64, ⟨0, ⟨"ecton", [], [], none⟩⟩), (2#64, ⟨0, ⟨"bob", [7#64], [], none⟩⟩)]
  roles := [(5#64, ⟨0, ⟨"superuser", [7#64]⟩⟩), (7#64, ⟨0, ⟨"auditor", [8#64]⟩⟩)]
  groups := [(7#64, ⟨0, ⟨"administrators", [fun _ _ => true]⟩⟩), (8#64, ⟨0, ⟨"auditors", []⟩⟩),
    (9#64, ⟨0, ⟨"auditor", []⟩⟩)]

/-- **C47 is violated**: a role that exists cannot be added by its name (`UserNotFound`), and if there is
a permission group of the same name, the id of the *group* is added to the user's roles; removing the role
by its name then returns `Ok` and leaves the user as it is. -/
theorem C47_violated_add_role_by_name :
    (∃ adm user role x, Denotes Role.name adm.roles role x ∧
      (∃ d, user.load User.username adm.users = .ok (some d)) ∧
      call adm .local .addRole user role = .error .userNotFound) ∧
    (∃ adm adm' adm'' uid user role x y, Denotes Role.name adm.roles role x ∧ x ≠ y ∧
      call adm .local .addRole user role = .ok adm' ∧
      call adm' .local .removeRole user role = .ok adm'' ∧
      ∃ m m' m'', adm.memberships uid = some m ∧ adm'.memberships uid = some m' ∧
        adm''.memberships uid = some m'' ∧
        ¬ m'.roles x ∧ m'.roles y ∧ ¬ m.roles y ∧ m''.roles y) := by
  refine ⟨⟨exAdmin, .key 1#64, .name "superuser", 5#64, .inl ⟨_, rfl, by decide⟩, ⟨_, rfl⟩, by rfl⟩, ?_⟩
  refine ⟨exAdmin, { exAdmin with users := [(1#64, ⟨1, ⟨"ecton", [], [9#64], none⟩⟩), (2#64, ⟨0, ⟨"bob", [7#64], [], none⟩⟩)] },
    { exAdmin with users := [(1#64, ⟨1, ⟨"ecton", [], [9#64], none⟩⟩), (2#64, ⟨0, ⟨"bob", [7#64], [], none⟩⟩)] },
    1#64, .key 1#64, .name "auditor", 7#64, 9#64, .inl ⟨_, rfl, by decide⟩, by decide, by rfl, by rfl,
    ⟨fun i => i ∈ ([] : List Id), fun i => i ∈ ([] : List Id)⟩,
    ⟨fun i => i ∈ ([] : List Id), fun i => i ∈ [9#64]⟩,
    ⟨fun i => i ∈ ([] : List Id), fun i => i ∈ [9#64]⟩, rfl, rfl, rfl, by decide, by decide, by decide, by decide⟩

/-- Two callers race to add groups to one user: the second one's update conflicts, and it has no effect. -/
example : ∃ σ', Run ⟨exAdmin, []⟩ [.silent, .silent, .done .addGroup 1#64 7#64, .failed] σ' ∧
    (σ'.adm.memberships 1#64).map (fun m => m.groups 7#64 ∧ ¬ m.groups 8#64) = some (True) := by
  have s1 : Run ⟨exAdmin, []⟩ [.silent] _ := .snoc (.nil _)
    (.loaded (op := .addGroup) (u := .name "ecton") (o := .name "administrators") (uid := 1#64)
      (d := ⟨0, ⟨"ecton", [], [], none⟩⟩) (x := 7#64) .local rfl rfl rfl)
  have s2 := Run.snoc s1
    (.loaded (op := .addGroup) (u := .name "ecton") (o := .name "auditors") (uid := 1#64)
      (d := ⟨0, ⟨"ecton", [], [], none⟩⟩) (x := 8#64) .local rfl rfl rfl)
  have s3 := Run.snoc s2 (.commit (pre := []) rfl rfl)
  exact ⟨_, .snoc s3 (.conflict (pre := []) (post := []) (e := .conflict) rfl rfl), by
  show some (7#64 ∈ [7#64] ∧ ¬ 8#64 ∈ [7#64]) = some True
  simp⟩

example : ∃ adm', call exAdmin .local .addGroup (.name "ecton") (.name "auditors") = .ok adm' := ⟨_, rfl⟩

end Example

end Bonsai.Ident
