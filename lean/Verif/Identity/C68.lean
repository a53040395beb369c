import Verif.Identity.Calls

/-!
# C68: calls of a storage have only permitted effects
-/
set_option linter.unusedSimpArgs false
set_option linter.unusedSectionVars false
set_option linter.unusedVariables false

namespace Bonsai.Ident
open Bonsai Bonsai.Names

variable {S : Type} [DecidableEq S]

/-! ## Specification -/

/-- The documented permission of a call (core/src/permissions/bonsai.rs:119-149): the action, on the thing
the call names. Answering a challenge needs none (the challenge did). -/
def Needed (adm : Adm) : Call S → Resource → Action → Prop
  | .createDatabase n _ _ _, r, a => r = .database n ∧ a = .createDatabase
  | .deleteDatabase n _, r, a => r = .database n ∧ a = .deleteDatabase
  | .listDatabases, r, a => r = .server ∧ a = .listDatabases
  | .listSchemas, r, a => r = .server ∧ a = .listAvailableSchemas
  | .createUser _ _, r, a => r = .server ∧ a = .createUser
  | .deleteUser u, r, a => (∃ uid, Denotes User.username adm.users u uid ∧ r = .user uid) ∧ a = .deleteUser
  | .setPassword u _, r, a => (∃ uid, Denotes User.username adm.users u uid ∧ r = .user uid) ∧ a = .setPassword
  | .member op u _, r, a => (∃ uid, Denotes User.username adm.users u uid ∧ r = .user uid) ∧ a = op.action
  | .assumeIdentity (.user u), r, a =>
    (∃ uid, Denotes User.username adm.users u uid ∧ r = .user uid) ∧ a = .assumeIdentity
  | .assumeIdentity (.role u), r, a =>
    (∃ rid, Denotes Role.name adm.roles u rid ∧ r = .role rid) ∧ a = .assumeIdentity
  | .password u _, r, a => (∃ uid, Denotes User.username adm.users u uid ∧ r = .user uid) ∧ a = .authenticatePassword
  | .beginToken id _ _ _ _ _, r, a => r = .authToken id ∧ a = .authenticateToken
  | .finishToken _, _, _ => False

/-- The call answers a challenge. -/
def Call.IsResponse : Call S → Prop
  | .finishToken _ => True
  | _ => False

/-- Every change from `σ` to `σ'` is one that a caller on `h` is permitted to make. -/
structure Authorised (h : Handle) (σ σ' : Srv S) : Prop where
  created : ∀ uid, σ.st.adm.users.get uid = none → σ'.st.adm.users.get uid ≠ none →
    h.allowed .server .createUser = true
  deleted : ∀ uid, σ.st.adm.users.get uid ≠ none → σ'.st.adm.users.get uid = none →
    h.allowed (.user uid) .deleteUser = true
  password : ∀ uid d d', σ.st.adm.users.get uid = some d → σ'.st.adm.users.get uid = some d' →
    d'.contents.argonHash ≠ d.contents.argonHash → h.allowed (.user uid) .setPassword = true
  groups : ∀ uid d d', σ.st.adm.users.get uid = some d → σ'.st.adm.users.get uid = some d' →
    d'.contents.groups ≠ d.contents.groups → h.allowed (.user uid) .modifyUserPermissionGroups = true
  roles : ∀ uid d d', σ.st.adm.users.get uid = some d → σ'.st.adm.users.get uid = some d' →
    d'.contents.roles ≠ d.contents.roles → h.allowed (.user uid) .modifyUserRoles = true
  name : ∀ uid d d', σ.st.adm.users.get uid = some d → σ'.st.adm.users.get uid = some d' →
    d'.contents.username = d.contents.username
  rest : σ'.st.adm.groups = σ.st.adm.groups ∧ σ'.st.adm.roles = σ.st.adm.roles ∧ σ'.st.tokens = σ.st.tokens ∧
    σ'.st.inherited = σ.st.inherited
  dbCreated : ∀ n, σ.dbs.available n = none → σ'.dbs.available n ≠ none →
    h.allowed (.database n) .createDatabase = true
  dbDeleted : ∀ n s, σ.dbs.available n = some s → σ'.dbs.available n ≠ some s →
    h.allowed (.database n) .deleteDatabase = true
  files : ∀ q, σ'.dbs.fs q ≠ σ.dbs.fs q → σ.dbs.dir Storage.adminName <+: q ∨
    ∃ n, h.allowed (.database n) .deleteDatabase = true ∧ σ.dbs.dir n <+: q

/-- The call does not name a user to delete, or whose password to set, by its username. -/
def Call.ById : Call S → Prop
  | .deleteUser r => ∀ n, r ≠ .name n
  | .setPassword r _ => ∀ n, r ≠ .name n
  | _ => True

/-! ## Lemmas -/

theorem authorised_same (h : Handle) (σ : Srv S) {σ' : Srv S} (ha : σ'.st.adm = σ.st.adm)
    (ht : σ'.st.tokens = σ.st.tokens) (hi : σ'.st.inherited = σ.st.inherited) (hd : σ'.dbs = σ.dbs) :
    Authorised h σ σ' := by
  refine ⟨?_, ?_, ?_, ?_, ?_, ?_, ⟨by rw [ha], by rw [ha], ht, hi⟩, ?_, ?_, ?_⟩ <;>
    simp only [ha, hd]
  · intro uid h1 h2; exact absurd h1 h2
  · intro uid h1 h2; exact absurd h2 h1
  · intro uid d d' h1 h2 h3; rw [h1] at h2; cases h2; exact absurd rfl h3
  · intro uid d d' h1 h2 h3; rw [h1] at h2; cases h2; exact absurd rfl h3
  · intro uid d d' h1 h2 h3; rw [h1] at h2; cases h2; exact absurd rfl h3
  · intro uid d d' h1 h2; rw [h1] at h2; cases h2; rfl
  · intro n h1 h2; exact absurd h1 h2
  · intro n s h1 h2; exact absurd h1 h2
  · intro q h1; exact absurd rfl h1

/-- Only the database side changed. -/
theorem authorised_dbs (h : Handle) (σ : Srv S) (dbs : Storage.St S)
    (h1 : ∀ n, σ.dbs.available n = none → dbs.available n ≠ none → h.allowed (.database n) .createDatabase = true)
    (h2 : ∀ n s, σ.dbs.available n = some s → dbs.available n ≠ some s →
      h.allowed (.database n) .deleteDatabase = true)
    (h3 : ∀ q, dbs.fs q ≠ σ.dbs.fs q → σ.dbs.dir Storage.adminName <+: q ∨
      ∃ n, h.allowed (.database n) .deleteDatabase = true ∧ σ.dbs.dir n <+: q) :
    Authorised h σ { σ with dbs := dbs } := by
  have s := authorised_same (σ' := σ) h σ rfl rfl rfl rfl
  exact ⟨s.created, s.deleted, s.password, s.groups, s.roles, s.name, s.rest, h1, h2, h3⟩

/-- Only one user changed. -/
theorem authorised_user (h : Handle) (σ : Srv S) (adm : Adm) (fl : List (Handle × Flight)) (uid : Id)
    (hg : adm.groups = σ.st.adm.groups) (hr : adm.roles = σ.st.adm.roles)
    (ho : ∀ i, i ≠ uid → adm.users.get i = σ.st.adm.users.get i)
    (hc : σ.st.adm.users.get uid = none → adm.users.get uid ≠ none → h.allowed .server .createUser = true)
    (hd : σ.st.adm.users.get uid ≠ none → adm.users.get uid = none → h.allowed (.user uid) .deleteUser = true)
    (hu : ∀ d d', σ.st.adm.users.get uid = some d → adm.users.get uid = some d' →
      (d'.contents.argonHash ≠ d.contents.argonHash → h.allowed (.user uid) .setPassword = true) ∧
      (d'.contents.groups ≠ d.contents.groups → h.allowed (.user uid) .modifyUserPermissionGroups = true) ∧
      (d'.contents.roles ≠ d.contents.roles → h.allowed (.user uid) .modifyUserRoles = true) ∧
      d'.contents.username = d.contents.username) :
    Authorised h σ { σ with st := { σ.st with adm := adm }, flying := fl } := by
  have s := authorised_same (σ' := σ) h σ rfl rfl rfl rfl
  refine ⟨?_, ?_, ?_, ?_, ?_, ?_, ⟨hg, hr, rfl, rfl⟩, s.dbCreated, s.dbDeleted, s.files⟩
  all_goals
    intro i
    by_cases e : i = uid
    · subst e
      first
        | exact hc
        | exact hd
        | exact fun d d' a b => (hu d d' a b).1
        | exact fun d d' a b => (hu d d' a b).2.1
        | exact fun d d' a b => (hu d d' a b).2.2.1
        | exact fun d d' a b => (hu d d' a b).2.2.2
    · simp only [ho i e]
      first
        | exact s.created i
        | exact s.deleted i
        | exact s.password i
        | exact s.groups i
        | exact s.roles i
        | exact s.name i

theorem create_authorised (h : Handle) (σ : Srv S) (n : String) (s : S) (o : Bool)
    (f : Storage.Path → Option Bytes) (hp : h.allowed (.database n) .createDatabase = true) :
    Authorised h σ { σ with dbs := (σ.dbs.create n s o f).2 } := by
  have same := authorised_same (σ' := σ) h σ rfl rfl rfl rfl
  unfold Storage.St.create
  split
  · split
    · cases ha : σ.dbs.available n with
      | some _ => exact same
      | none =>
        apply authorised_dbs
        · intro m h1 h2
          by_cases e : m = n
          · rw [e]; exact hp
          · simp only [Storage.setAt, e, if_false] at h2
            exact absurd h1 h2
        · intro m t h1 h2
          by_cases e : m = n
          · rw [e, ha] at h1; cases h1
          · simp only [Storage.setAt, e, if_false] at h2
            exact absurd h1 h2
        · intro q hq
          left
          simp only [Storage.overlay] at hq
          split at hq
          · assumption
          · exact absurd rfl hq
    · exact same
  · exact same

theorem delete_available (st : Storage.St S) (n : String) (f : Storage.Path → Option Bytes) :
    (st.delete n f).2.available = Storage.setAt st.available n none := by
  unfold Storage.St.delete
  dsimp only
  cases st.records n <;> rfl

theorem delete_fs (st : Storage.St S) (n : String) (f : Storage.Path → Option Bytes) (q : Storage.Path)
    (h1 : ¬ st.dir Storage.adminName <+: q) (h2 : ¬ st.dir n <+: q) : (st.delete n f).2.fs q = st.fs q := by
  have h1' : ¬ Storage.join st.base Storage.adminName <+: q := h1
  have h2' : ¬ Storage.join st.base n <+: q := h2
  unfold Storage.St.delete
  dsimp only
  cases st.records n <;> simp [Storage.overlay, Storage.St.dir, h1', h2']

theorem delete_authorised (h : Handle) (σ : Srv S) (n : String) (f : Storage.Path → Option Bytes)
    (hp : h.allowed (.database n) .deleteDatabase = true) :
    Authorised h σ { σ with dbs := (σ.dbs.delete n f).2 } := by
  apply authorised_dbs
  · intro m h1 h2
    rw [delete_available] at h2
    exfalso
    apply h2
    unfold Storage.setAt
    split
    · rfl
    · exact h1
  · intro m t h1 h2
    by_cases e : m = n
    · rw [e]; exact hp
    · rw [delete_available] at h2
      simp only [Storage.setAt, e, if_false] at h2
      exact absurd h1 h2
  · intro q hq
    by_cases h1 : σ.dbs.dir Storage.adminName <+: q
    · exact .inl h1
    · by_cases h2 : σ.dbs.dir n <+: q
      · exact .inr ⟨n, hp, h2⟩
      · exact absurd (delete_fs σ.dbs n f q h1 h2) hq

theorem next_session_adm (H : Hashes) (st : St) (e : Event) (he : ∀ a t, e ≠ .records a t) :
    (st.next H e).2.adm = st.adm ∧ (st.next H e).2.tokens = st.tokens ∧
      (st.next H e).2.inherited = st.inherited := by
  cases e with
  | records a t => exact absurd rfl (he a t)
  | assumeIdentity h i =>
    simp only [St.next, orSame]
    cases hr : st.assumeIdentity h i with
    | error e => exact ⟨rfl, rfl, rfl⟩
    | ok p =>
      unfold St.assumeIdentity at hr
      cases i with
      | user r =>
        simp only at hr
        repeat' split at hr
        all_goals first | (cases hr; done) | (cases hr; exact ⟨rfl, rfl, rfl⟩)
      | role r =>
        simp only at hr
        repeat' split at hr
        all_goals first | (cases hr; done) | (cases hr; exact ⟨rfl, rfl, rfl⟩)
  | password h u p =>
    simp only [St.next, orSame]
    cases hr : st.authenticatePassword H h u p with
    | error e => exact ⟨rfl, rfl, rfl⟩
    | ok p =>
      unfold St.authenticatePassword at hr
      repeat' split at hr
      all_goals first | (cases hr; done) | (cases hr; exact ⟨rfl, rfl, rfl⟩)
  | beginToken h id t th n n' no =>
    simp only [St.next, orSame]
    cases hr : st.beginToken H h id t th n n' no with
    | error e => exact ⟨rfl, rfl, rfl⟩
    | ok p =>
      unfold St.beginToken at hr
      repeat' split at hr
      all_goals first | (cases hr; done) | (cases hr; exact ⟨rfl, rfl, rfl⟩)
  | finishToken h hash =>
    simp only [St.next, St.finishToken]
    repeat' split
    all_goals exact ⟨rfl, rfl, rfl⟩
  | drop sid o =>
    simp only [St.next, St.dropHandle]
    split <;> exact ⟨rfl, rfl, rfl⟩

theorem sessionAnswer_authorised (H : Hashes) (h h' : Handle) (σ : Srv S) (e : Event)
    (he : ∀ a t, e ≠ .records a t) : Authorised h σ (sessionAnswer σ (σ.st.next H e)).2 := by
  obtain ⟨h1, h2, h3⟩ := next_session_adm H σ.st e he
  exact authorised_same h σ h1 h2 h3 rfl

theorem guarded_authorised {h : Handle} {r : Resource} {a : Action} {σ : Srv S}
    {f : Except Err (Answer S) × Srv S} (hf : h.allowed r a = true → Authorised h σ f.2) :
    Authorised h σ (guarded h r a σ f).2 := by
  unfold guarded
  by_cases hp : h.allowed r a = true
  · simp only [hp, if_true]; exact hf hp
  · simp only [hp]
    exact authorised_same h σ rfl rfl rfl rfl

theorem createUser_authorised (h : Handle) (σ : Srv S) (n : String) (uid : Id)
    (hp : h.allowed .server .createUser = true) : Authorised h σ (σ.createUser n uid).2 := by
  have same := authorised_same (σ' := σ) h σ rfl rfl rfl rfl
  unfold Srv.createUser
  split
  · exact same
  · rename_i adm hc
    unfold Ident.createUser at hc
    split at hc
    · cases hc
    · split at hc
      · cases hc
      · rename_i h1 h2
        cases hc
        have hnone : σ.st.adm.users.get uid = none := by simpa using h2
        have := authorised_user h σ { σ.st.adm with users := σ.st.adm.users ++ [(uid, ⟨0, ⟨n, [], [], none⟩⟩)] }
          σ.flying uid rfl rfl (fun i hi => get_append_ne hi) (fun _ _ => hp)
          (fun h1 => absurd hnone h1) (fun d d' h1 => by rw [hnone] at h1; cases h1)
        exact this

theorem atomic_authorised {H : Hashes} {h : Handle} {σ σ' : Srv S} {c : Call S} {r : Except Err (Answer S)}
    (ha : σ.atomic H h c = some (r, σ')) : Authorised h σ σ' := by
  have e : ∀ x : Except Err (Answer S) × Srv S, some x = some (r, σ') → σ' = x.2 := by
    intro x hx; cases hx; rfl
  cases c with
  | createDatabase n s o f => rw [e _ ha]; exact guarded_authorised fun hp => create_authorised h σ n s o f hp
  | deleteDatabase n f => rw [e _ ha]; exact guarded_authorised fun hp => delete_authorised h σ n f hp
  | listDatabases => rw [e _ ha]; exact guarded_authorised fun _ => authorised_same h σ rfl rfl rfl rfl
  | listSchemas => rw [e _ ha]; exact guarded_authorised fun _ => authorised_same h σ rfl rfl rfl rfl
  | createUser n uid => rw [e _ ha]; exact guarded_authorised fun hp => createUser_authorised h σ n uid hp
  | assumeIdentity i => rw [e _ ha]; exact sessionAnswer_authorised H h h σ _ (by simp)
  | password u p => rw [e _ ha]; exact sessionAnswer_authorised H h h σ _ (by simp)
  | beginToken => rw [e _ ha]; exact sessionAnswer_authorised H h h σ _ (by simp)
  | finishToken => rw [e _ ha]; exact sessionAnswer_authorised H h h σ _ (by simp)
  | deleteUser => cases ha
  | setPassword => cases ha
  | member => cases ha

/-- Calls under way have been checked for what they will change. -/
def Flight.Ok (h : Handle) : Flight → Prop
  | .deleteUser r => (∀ n, r ≠ .name n) ∧
    ∀ (c : Coll User) uid, r.resolve User.username c = .ok (some uid) → h.allowed (.user uid) .deleteUser = true
  | .deleteLoaded uid _ => h.allowed (.user uid) .deleteUser = true
  | .setPassword r _ => (∀ n, r ≠ .name n) ∧
    ∀ (c : Coll User) uid, r.resolve User.username c = .ok (some uid) → h.allowed (.user uid) .setPassword = true
  | .passwordLoaded uid _ _ => h.allowed (.user uid) .setPassword = true
  | .member op uid _ _ => h.allowed (.user uid) op.action = true

theorem resolve_indep {r : Ref} (hr : ∀ n, r ≠ .name n) (c c' : Coll User) :
    r.resolve User.username c = r.resolve User.username c' := by
  cases r with
  | name n => exact absurd rfl (hr n)
  | _ => rfl

theorem checkUser_ok {adm : Adm} {h : Handle} {r : Ref} {a : Action} (hc : checkUser adm h r a = .ok ()) :
    ∃ uid, r.resolve User.username adm.users = .ok (some uid) ∧ h.allowed (.user uid) a = true := by
  unfold checkUser at hc
  split at hc
  · cases hc
  · cases hc
  · rename_i uid hr
    split at hc
    · exact ⟨uid, hr, by assumption⟩
    · cases hc

theorem start_ok {adm : Adm} {h : Handle} {c : Call S} {f : Flight} (hid : c.ById)
    (hs : start adm h c = some (.ok f)) : f.Ok h := by
  cases c with
  | deleteUser r =>
    simp only [start] at hs
    split at hs
    · cases hs
    · rename_i hc
      cases hs
      obtain ⟨uid, h1, h2⟩ := checkUser_ok hc
      refine ⟨hid, fun c uid' h3 => ?_⟩
      rw [resolve_indep hid c adm.users, h1] at h3
      cases h3
      exact h2
  | setPassword r hash =>
    simp only [start] at hs
    split at hs
    · cases hs
    · rename_i hc
      cases hs
      obtain ⟨uid, h1, h2⟩ := checkUser_ok hc
      refine ⟨hid, fun c uid' h3 => ?_⟩
      rw [resolve_indep hid c adm.users, h1] at h3
      cases h3
      exact h2
  | member op u o =>
    simp only [start] at hs
    split at hs
    · cases hs
    · split at hs
      · rename_i hp
        split at hs
        · cases hs; exact hp
        · cases hs
      · cases hs
  | _ => cases hs

theorem loadUser_ok {adm : Adm} {r : Ref} {uid : Id} {d : Doc User} (h : loadUser adm r = .ok (uid, d)) :
    r.resolve User.username adm.users = .ok (some uid) ∧ adm.users.get uid = some d := by
  unfold loadUser at h
  split at h
  · cases h
  · cases h
  · rename_i p hl
    cases h
    unfold Ref.load at hl
    split at hl
    · cases hl
    · cases hl
    · rename_i k hr
      cases hg : adm.users.get k with
      | none => rw [hg] at hl; cases hl
      | some d' =>
        rw [hg] at hl
        cases hl
        exact ⟨hr, hg⟩

theorem next_goesOn {adm : Adm} {h : Handle} {f f' : Flight} (hf : f.Ok h) (hn : f.next adm = .goesOn f') :
    f'.Ok h := by
  cases f with
  | deleteUser r =>
    simp only [Flight.next] at hn
    split at hn
    · cases hn
    · rename_i uid d hl
      cases hn
      exact hf.2 _ _ (loadUser_ok hl).1
  | setPassword r hash =>
    simp only [Flight.next] at hn
    split at hn
    · cases hn
    · rename_i uid d hl
      cases hn
      exact hf.2 _ _ (loadUser_ok hl).1
  | _ => cases hn

/-- A user is updated. -/
theorem updateUser_get {adm adm' : Adm} {uid : Id} {d : Doc User} {u : User}
    (hu : updateUser adm uid d u = .ok adm') : ∃ d0, adm.users.get uid = some d0 ∧
      d0.contents = d.contents ∧ adm'.users.get uid = some ⟨d0.rev + 1, u⟩ ∧
      (∀ i, i ≠ uid → adm'.users.get i = adm.users.get i) ∧ adm'.groups = adm.groups ∧ adm'.roles = adm.roles := by
  unfold updateUser at hu
  split at hu
  · cases hu
  · rename_i d0 hg
    split at hu
    · rename_i hc
      cases hu
      exact ⟨d0, hg, hc.2, get_put_self (by rw [hg]; rfl), fun i hi => get_put_ne hi, rfl, rfl⟩
    · cases hu

theorem apply_changes (op : UserOp) (x : Id) (u : User) :
    (op.apply x u).1.argonHash = u.argonHash ∧ (op.apply x u).1.username = u.username ∧
    ((op.apply x u).1.groups ≠ u.groups → op.action = .modifyUserPermissionGroups) ∧
    ((op.apply x u).1.roles ≠ u.roles → op.action = .modifyUserRoles) := by
  cases op with
  | addGroup =>
    simp only [UserOp.apply]
    split
    · exact ⟨rfl, rfl, fun h => absurd rfl h, fun h => absurd rfl h⟩
    · exact ⟨rfl, rfl, fun _ => rfl, fun h => absurd rfl h⟩
  | addRole =>
    simp only [UserOp.apply]
    split
    · exact ⟨rfl, rfl, fun h => absurd rfl h, fun h => absurd rfl h⟩
    · exact ⟨rfl, rfl, fun h => absurd rfl h, fun _ => rfl⟩
  | removeGroup => exact ⟨rfl, rfl, fun _ => rfl, fun h => absurd rfl h⟩
  | removeRole => exact ⟨rfl, rfl, fun h => absurd rfl h, fun _ => rfl⟩

theorem ends_authorised {h : Handle} {σ : Srv S} {f : Flight} {adm : Adm} (fl : List (Handle × Flight))
    (hf : f.Ok h) (hn : f.next σ.st.adm = .ends (.ok adm)) :
    Authorised h σ { σ with st := { σ.st with adm := adm }, flying := fl } := by
  cases f with
  | deleteUser r =>
    simp only [Flight.next] at hn
    split at hn <;> cases hn
  | setPassword r hash =>
    simp only [Flight.next] at hn
    split at hn <;> cases hn
  | deleteLoaded uid d =>
    simp only [Flight.next, Next.ends.injEq] at hn
    unfold removeUser at hn
    split at hn
    · cases hn
    · split at hn
      · cases hn
        refine authorised_user h σ _ fl uid rfl rfl (fun i hi => get_del_ne hi) ?_ (fun _ _ => hf) ?_
        · intro _ h2
          exact absurd get_del_self h2
        · intro d1 d2 h1 h2
          rw [show ({ σ.st.adm with users := σ.st.adm.users.del uid } : Adm).users = σ.st.adm.users.del uid from rfl,
            get_del_self] at h2
          cases h2
      · cases hn
  | passwordLoaded uid d hash =>
    simp only [Flight.next, Next.ends.injEq] at hn
    obtain ⟨d0, h1, h2, h3, h4, h5, h6⟩ := updateUser_get hn
    refine authorised_user h σ adm fl uid h5 h6 h4 ?_ ?_ ?_
    · intro hx; rw [h1] at hx; cases hx
    · intro _ hx; rw [h3] at hx; cases hx
    · intro e e' he he'
      rw [h1] at he; cases he
      rw [h3] at he'; cases he'
      exact ⟨fun _ => hf, fun hx => absurd (by rw [h2]) hx, fun hx => absurd (by rw [h2]) hx, by rw [h2]⟩
  | member op uid d x =>
    simp only [Flight.next, Next.ends.injEq] at hn
    obtain ⟨d0, h1, h2, h3, h4, h5, h6⟩ := updateUser_get hn
    obtain ⟨a1, a2, a3, a4⟩ := apply_changes op x d.contents
    have hf : h.allowed (.user uid) op.action = true := hf
    refine authorised_user h σ adm fl uid h5 h6 h4 ?_ ?_ ?_
    · intro hx; rw [h1] at hx; cases hx
    · intro _ hx; rw [h3] at hx; cases hx
    · intro e e' he he'
      rw [h1] at he; cases he
      rw [h3] at he'; cases he'
      refine ⟨fun hx => absurd (by rw [h2]; exact a1) hx, fun hx => ?_, fun hx => ?_, by rw [h2]; exact a2⟩
      · rw [← a3 (fun e => hx (by rw [h2]; exact e))]; exact hf
      · rw [← a4 (fun e => hx (by rw [h2]; exact e))]; exact hf

theorem step_flying {H : Hashes} {σ σ' : Srv S} {h : Handle} {c : Option (Call S)}
    {r : Option (Except Err (Answer S))} (k : CallStep H σ h c r σ') (hid : ∀ x, c = some x → x.ById)
    (hok : ∀ p ∈ σ.flying, p.2.Ok p.1) : ∀ p ∈ σ'.flying, p.2.Ok p.1 := by
  cases k with
  | atomic _ _ c r ha =>
    have : σ'.flying = σ.flying := by
      have e : ∀ x : Except Err (Answer S) × Srv S, some x = some (r, σ') → σ' = x.2 := by
        intro x hx; cases hx; rfl
      have g : ∀ (h : Handle) (re : Resource) (a : Action) (f : Except Err (Answer S) × Srv S),
          f.2.flying = σ.flying → (guarded h re a σ f).2.flying = σ.flying := by
        intro h re a f hf
        unfold guarded
        split
        · exact hf
        · rfl
      cases c with
      | createDatabase n s o f => rw [e _ ha]; exact g _ _ _ _ rfl
      | deleteDatabase n f => rw [e _ ha]; exact g _ _ _ _ rfl
      | listDatabases => rw [e _ ha]; exact g _ _ _ _ rfl
      | listSchemas => rw [e _ ha]; exact g _ _ _ _ rfl
      | createUser n uid =>
        rw [e _ ha]
        refine g _ _ _ _ ?_
        unfold Srv.createUser
        split <;> rfl
      | assumeIdentity i => rw [e _ ha]; rfl
      | password u p => rw [e _ ha]; rfl
      | beginToken => rw [e _ ha]; rfl
      | finishToken => rw [e _ ha]; rfl
      | deleteUser => cases ha
      | setPassword => cases ha
      | member => cases ha
    rw [this]; exact hok
  | refused => exact hok
  | started _ c f hs =>
    intro p hp
    rcases List.mem_cons.mp hp with rfl | hp
    · exact start_ok (hid c rfl) hs
    · exact hok p hp
  | goesOn _ pre post f f' hf hn =>
    intro p hp
    simp only [List.mem_append, List.mem_cons] at hp
    rcases hp with hp | rfl | hp
    · exact hok p (by rw [hf]; simp [hp])
    · exact next_goesOn (hok (h, f) (by rw [hf]; simp)) hn
    · exact hok p (by rw [hf]; simp [hp])
  | commits _ pre post f adm hf hn =>
    intro p hp
    simp only [List.mem_append] at hp
    refine hok p ?_
    rw [hf]
    rcases hp with hp | hp <;> simp [hp]
  | fails _ pre post f e hf hn =>
    intro p hp
    simp only [List.mem_append] at hp
    refine hok p ?_
    rw [hf]
    rcases hp with hp | hp <;> simp [hp]

theorem run_flying {H : Hashes} {σ σ' : Srv S} {tr : List (Handle × Option (Call S))}
    (run : CallRun H σ tr σ') (h0 : σ.flying = []) (hid : ∀ h x, (h, some x) ∈ tr → x.ById) :
    ∀ p ∈ σ'.flying, p.2.Ok p.1 := by
  induction run with
  | nil => rw [h0]; intro p hp; cases hp
  | snoc run k ih =>
    refine step_flying k ?_ (ih fun h x hx => hid h x (List.mem_append_left _ hx))
    rintro x rfl
    exact hid _ x (List.mem_append_right _ (List.mem_singleton.mpr rfl))

/-! ## Theorems -/

/-- **C68** (partial): in every interleaving of calls on any handles, every step changes only what its own
handle is permitted to change: users, passwords, memberships, databases and their files. Assumed: users to
delete or to give a password are named by their ids. With usernames it is false, see
`C68_violated_password_race`. -/
theorem C68_effects_partial (H : Hashes) (σ₀ σ σ' : Srv S) (tr : List (Handle × Option (Call S)))
    (run : CallRun H σ₀ tr σ) (h0 : σ₀.flying = []) (hid : ∀ h x, (h, some x) ∈ tr → x.ById)
    (h : Handle) (c : Option (Call S)) (r : Option (Except Err (Answer S))) (k : CallStep H σ h c r σ') :
    Authorised h σ σ' := by
  have hok := run_flying run h0 hid
  cases k with
  | atomic _ _ c r ha => exact atomic_authorised ha
  | refused => exact authorised_same h σ rfl rfl rfl rfl
  | started => exact authorised_same h σ rfl rfl rfl rfl
  | goesOn => exact authorised_same h σ rfl rfl rfl rfl
  | commits _ pre post f adm hf hn => exact ends_authorised _ (hok (h, f) (by rw [hf]; simp)) hn
  | fails => exact authorised_same h σ rfl rfl rfl rfl

/-- A reference that resolves denotes what it resolves to. -/
theorem denotes_of_resolve {α : Type} {nameOf : α → String} {c : Coll α} {r : Ref} {x : Id}
    (h : r.resolve nameOf c = .ok (some x)) : Denotes nameOf c r x := by
  cases r with
  | name n => simp only [Ref.resolve, Except.ok.injEq] at h; exact .inl ⟨n, rfl, h⟩
  | id b =>
    simp only [Ref.resolve] at h
    split at h
    · rename_i hl
      simp only [Except.ok.injEq, Option.some.injEq] at h
      refine .inr (.inr ?_)
      subst h
      have h1 := fromBE_lt b
      have h2 := toBE_fromBE b
      rw [hl] at h1 h2
      simp only [id8, BitVec.toNat_ofNat]
      rw [Nat.mod_eq_of_lt (by omega), h2]
    · cases h
  | key k =>
    simp only [Ref.resolve, Except.ok.injEq, Option.some.injEq] at h
    exact .inr (.inl (by rw [h]))

theorem load_resolve {α : Type} {nameOf : α → String} {c : Coll α} {r : Ref} {x : Id} {d : Doc α}
    (h : r.load nameOf c = .ok (some (x, d))) : r.resolve nameOf c = .ok (some x) := by
  unfold Ref.load at h
  split at h
  · cases h
  · cases h
  · rename_i k hk
    cases hg : c.get k with
    | none => rw [hg] at h; cases h
    | some d' => rw [hg] at h; cases h; exact hk

theorem loadFor_load {adm : Adm} {op : UserOp} {u o : Ref} {uid x : Id} {d : Doc User}
    (hl : loadFor adm op u o = .ok (uid, d, x)) : u.load User.username adm.users = .ok (some (uid, d)) := by
  unfold loadFor at hl
  cases h1 : u.load User.username adm.users with
  | error e => simp [h1] at hl
  | ok v =>
    cases h2 : op.resolveIn adm o with
    | error e => simp [h1, h2] at hl
    | ok w => cases v <;> cases w <;> simp [h1, h2] at hl <;> (obtain ⟨rfl, rfl, -⟩ := hl; rfl)

theorem sessionAnswer_error (σ : Srv S) (e : Err) :
    sessionAnswer σ (.error e, σ.st) = (.error e, σ) := rfl

/-- **C68**: a call without its documented permission is an error and changes nothing, whatever state the
storage is in and whatever calls are under way. -/
theorem C68_denied (H : Hashes) (σ σ' : Srv S) (h : Handle) (c : Call S) (r : Option (Except Err (Answer S)))
    (hr : ¬ c.IsResponse) (hd : ∀ re a, Needed σ.st.adm c re a → h.allowed re a = false)
    (k : CallStep H σ h (some c) r σ') : σ' = σ ∧ ∃ e, r = some (.error e) := by
  have g : ∀ (re : Resource) (a : Action) (f : Except Err (Answer S) × Srv S), h.allowed re a = false →
      guarded h re a σ f = (.error .permissionDenied, σ) := by
    intro re a f hp
    simp [guarded, hp]
  have hnot : ∀ re a, Needed σ.st.adm c re a → ¬ h.allowed re a = true := by
    intro re a hn
    simp [hd re a hn]
  cases k with
  | atomic _ _ c r ha =>
    have e : ∀ x : Err, σ.atomic H h c = some (.error x, σ) →
        σ' = σ ∧ ∃ e, some r = some (Except.error e) := by
      intro x hx
      rw [hx] at ha
      cases ha
      exact ⟨rfl, _, rfl⟩
    cases c with
    | createDatabase n s o f => exact e _ (congrArg some (g _ _ _ (hd _ _ ⟨rfl, rfl⟩)))
    | deleteDatabase n f => exact e _ (congrArg some (g _ _ _ (hd _ _ ⟨rfl, rfl⟩)))
    | listDatabases => exact e _ (congrArg some (g _ _ _ (hd _ _ ⟨rfl, rfl⟩)))
    | listSchemas => exact e _ (congrArg some (g _ _ _ (hd _ _ ⟨rfl, rfl⟩)))
    | createUser n uid => exact e _ (congrArg some (g _ _ _ (hd _ _ ⟨rfl, rfl⟩)))
    | assumeIdentity i =>
      have : ∃ x, σ.st.assumeIdentity h i = .error x := by
        cases i with
        | user u =>
          cases hl : u.load User.username σ.st.adm.users with
          | error x => exact ⟨x, by simp [St.assumeIdentity, hl]⟩
          | ok o =>
            cases o with
            | none => exact ⟨_, by simp [St.assumeIdentity, hl]; rfl⟩
            | some p =>
              have := hd _ _ ⟨⟨p.1, denotes_of_resolve (load_resolve (d := p.2) hl), rfl⟩, rfl⟩
              exact ⟨_, by simp [St.assumeIdentity, hl, this]; rfl⟩
        | role u =>
          cases hl : u.load Role.name σ.st.adm.roles with
          | error x => exact ⟨x, by simp [St.assumeIdentity, hl]⟩
          | ok o =>
            cases o with
            | none => exact ⟨_, by simp [St.assumeIdentity, hl]; rfl⟩
            | some p =>
              have := hd _ _ ⟨⟨p.1, denotes_of_resolve (load_resolve (d := p.2) hl), rfl⟩, rfl⟩
              exact ⟨_, by simp [St.assumeIdentity, hl, this]; rfl⟩
      obtain ⟨x, hx⟩ := this
      refine e x ?_
      show some (sessionAnswer σ (orSame σ.st (σ.st.assumeIdentity h i))) = _
      rw [hx]; rfl
    | password u p =>
      have : ∃ x, σ.st.authenticatePassword H h u p = .error x := by
        cases hl : u.load User.username σ.st.adm.users with
        | error x => exact ⟨x, by simp [St.authenticatePassword, hl]⟩
        | ok o =>
          cases o with
          | none => exact ⟨_, by simp [St.authenticatePassword, hl]; rfl⟩
          | some p =>
            have := hd _ _ ⟨⟨p.1, denotes_of_resolve (load_resolve (d := p.2) hl), rfl⟩, rfl⟩
            exact ⟨_, by simp [St.authenticatePassword, hl, this]; rfl⟩
      obtain ⟨x, hx⟩ := this
      refine e x ?_
      show some (sessionAnswer σ (orSame σ.st (σ.st.authenticatePassword H h u p))) = _
      rw [hx]; rfl
    | beginToken id t th n n' no =>
      have := hd (.authToken id) .authenticateToken ⟨rfl, rfl⟩
      refine e .permissionDenied ?_
      show some (sessionAnswer σ (orSame σ.st (σ.st.beginToken H h id t th n n' no))) = _
      simp only [St.beginToken, this]
      rfl
    | finishToken hash => exact absurd trivial hr
    | deleteUser => cases ha
    | setPassword => cases ha
    | member => cases ha
  | refused _ c r hs =>
    refine ⟨rfl, ?_⟩
    cases r with
    | error x => exact ⟨x, rfl⟩
    | ok u =>
      exfalso
      cases c with
      | deleteUser u => simp only [start] at hs; split at hs <;> cases hs
      | setPassword u hash => simp only [start] at hs; split at hs <;> cases hs
      | member op u o =>
        simp only [start] at hs
        split at hs
        · cases hs
        · rename_i uid d x hl
          have : u.resolve User.username σ.st.adm.users = .ok (some uid) :=
            load_resolve (loadFor_load hl)
          have := hd _ _ ⟨⟨uid, denotes_of_resolve this, rfl⟩, rfl⟩
          simp [this] at hs
      | _ => cases hs
  | started _ c f hs =>
    exfalso
    cases c with
    | deleteUser u =>
      simp only [start] at hs
      split at hs
      · cases hs
      · rename_i hc
        obtain ⟨uid, h1, h2⟩ := checkUser_ok hc
        exact hnot _ _ ⟨⟨uid, denotes_of_resolve h1, rfl⟩, rfl⟩ h2
    | setPassword u hash =>
      simp only [start] at hs
      split at hs
      · cases hs
      · rename_i hc
        obtain ⟨uid, h1, h2⟩ := checkUser_ok hc
        exact hnot _ _ ⟨⟨uid, denotes_of_resolve h1, rfl⟩, rfl⟩ h2
    | member op u o =>
      simp only [start] at hs
      split at hs
      · cases hs
      · rename_i uid d x hl
        have : u.resolve User.username σ.st.adm.users = .ok (some uid) :=
          load_resolve (loadFor_load hl)
        have := hd _ _ ⟨⟨uid, denotes_of_resolve this, rfl⟩, rfl⟩
        simp [this] at hs
    | _ => cases hs

end Bonsai.Ident
