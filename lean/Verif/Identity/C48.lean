import Verif.Identity.C47

/-!
# C48: an assumed identity never exceeds its grants; C59: token authentication; C60: passwords;
C61: sessions end with their last handle
-/
set_option linter.unusedSimpArgs false
set_option linter.unusedSectionVars false

namespace Bonsai.Ident
open Bonsai Bonsai.Names

/-! ## Specification -/

/-- A permission group that exists has a statement allowing the action. -/
def GroupGrants (adm : Adm) (gid : Id) (r : Resource) (a : Action) : Prop :=
  ∃ d, adm.groups.get gid = some d ∧ ∃ s ∈ d.contents.statements, s (resourceName r) a = true

/-- A role is granted what its groups are. -/
def RoleGrants (adm : Adm) (rid : Id) (r : Resource) (a : Action) : Prop :=
  ∃ d, adm.roles.get rid = some d ∧ ∃ gid ∈ d.contents.groups, GroupGrants adm gid r a

/-- Everybody who is authenticated may do this (`authenticated_permissions`). -/
def Inherited (p : Permissions) (r : Resource) (a : Action) : Prop := ∃ s ∈ p, s (resourceName r) a = true

/-- What a user is granted: by its groups and by its roles. -/
def UserGrants (adm : Adm) (u : User) (r : Resource) (a : Action) : Prop :=
  (∃ gid ∈ u.groups, GroupGrants adm gid r a) ∨ ∃ rid ∈ u.roles, RoleGrants adm rid r a

/-! ## Lemmas -/

theorem mem_getMany {α : Type} {c : Coll α} (h : Ids c) {ids : List Id} {x : α} :
    x ∈ c.getMany ids ↔ ∃ i ∈ ids, ∃ d, c.get i = some d ∧ d.contents = x := by
  unfold Coll.getMany Coll.get
  simp only [List.mem_map, List.mem_filter, List.contains_iff_mem]
  constructor
  · rintro ⟨p, ⟨hp, hi⟩, rfl⟩
    refine ⟨p.1, hi, p.2, ?_, rfl⟩
    induction c with
    | nil => cases hp
    | cons q qs ih =>
      have hq : (q.1 :: (qs.map (·.1))).Nodup := h
      rw [List.nodup_cons] at hq
      rcases List.mem_cons.mp hp with rfl | hp
      · simp
      · have : ¬ q.1 = p.1 := fun e => hq.1 (e ▸ List.mem_map.mpr ⟨p, hp, rfl⟩)
        rw [List.find?_cons, beq_eq_false_iff_ne.mpr this]
        exact ih hq.2 hp
  · rintro ⟨i, hi, d, hd, rfl⟩
    rw [Option.map_eq_some_iff] at hd
    obtain ⟨p, hp, rfl⟩ := hd
    have h1 := List.mem_of_find?_eq_some hp
    have h2 := List.find?_some hp
    exact ⟨p, ⟨h1, by simpa using (beq_iff_eq.mp h2) ▸ hi⟩, rfl⟩

theorem mem_unique (l : List Id) (x : Id) : x ∈ unique l ↔ x ∈ l := by
  induction l with
  | nil => simp [unique]
  | cons y ys ih =>
    simp only [unique, List.mem_cons, List.mem_filter, ih]
    by_cases h : x = y <;> simp [h]

theorem mem_dedup (l : List Id) (x : Id) : x ∈ dedup l ↔ x ∈ l := by
  induction l with
  | nil => simp [dedup]
  | cons y ys ih =>
    cases ys with
    | nil => simp [dedup]
    | cons z zs =>
      simp only [dedup]
      split
      · rename_i h
        rw [ih, h]; simp
      · rw [List.mem_cons, ih]; simp only [List.mem_cons]

theorem allows_merged {gs : List Group} {inh : Permissions} {r : Resource} {a : Action} :
    (Permissions.merged ((gs.map (·.statements)) ++ [inh])).allows r a = true ↔
      (∃ g ∈ gs, ∃ s ∈ g.statements, s (resourceName r) a = true) ∨ Inherited inh r a := by
  unfold Permissions.allows Permissions.merged Inherited
  simp only [List.any_eq_true, List.flatten_append, List.flatten_cons, List.flatten_nil, List.append_nil,
    List.mem_append, List.mem_flatten, List.mem_map]
  constructor
  · rintro ⟨s, ⟨l, ⟨g, hg, rfl⟩, hs⟩ | hs, hr⟩
    · exact .inl ⟨g, hg, s, hs, hr⟩
    · exact .inr ⟨s, hs, hr⟩
  · rintro (⟨g, hg, s, hs, hr⟩ | ⟨s, hs, hr⟩)
    · exact ⟨s, .inl ⟨_, ⟨g, hg, rfl⟩, hs⟩, hr⟩
    · exact ⟨s, .inr hs, hr⟩

theorem groups_grant {adm : Adm} (h : Ids adm.groups) {ids : List Id} {r : Resource} {a : Action} :
    (∃ g ∈ adm.groups.getMany ids, ∃ s ∈ g.statements, s (resourceName r) a = true) ↔
      ∃ gid ∈ ids, GroupGrants adm gid r a := by
  simp only [mem_getMany h]
  constructor
  · rintro ⟨g, ⟨i, hi, d, hd, rfl⟩, hs⟩
    exact ⟨i, hi, d, hd, hs⟩
  · rintro ⟨i, hi, d, hd, hs⟩
    exact ⟨_, ⟨i, hi, d, hd, rfl⟩, hs⟩

/-! ## C48 -/

/-- **C48**: default deny: with a session, an action is allowed iff one of the session's statements
allows it; without a session (local access) everything is. -/
theorem C48_default_deny (h : Handle) (r : Resource) (a : Action) :
    (∀ s, h.effective = some s →
      (h.allowed r a = true ↔ ∃ st ∈ s.permissions, st (resourceName r) a = true)) ∧
    Handle.local.allowed r a = true := by
  refine ⟨?_, rfl⟩
  intro s hs
  unfold Handle.allowed
  rw [hs]
  exact List.any_eq_true

/-- **C48**: assuming an identity requires that it exists and that the caller may assume it; it gives a
session with a new id, authenticated as exactly that identity. Otherwise it is an error (and nothing
changes). -/
theorem C48_assume_identity (st st' : St) (h h' : Handle) (i : IdentityRef)
    (ha : st.assumeIdentity h i = .ok (h', st')) :
    ∃ s, h'.effective = some s ∧ h'.authentication = some s ∧ s.id = some (st.lastId + 1) ∧
      st'.session (st.lastId + 1) = some s ∧ st'.adm = st.adm ∧
      ((∃ ref uid d, i = .user ref ∧ ref.load User.username st.adm.users = .ok (some (uid, d)) ∧
          h.allowed (.user uid) .assumeIdentity = true ∧ s.auth = .identity (.user uid d.contents.username) ∧
          s.permissions = userPermissions st.adm st.inherited d.contents) ∨
       (∃ ref rid d, i = .role ref ∧ ref.load Role.name st.adm.roles = .ok (some (rid, d)) ∧
          h.allowed (.role rid) .assumeIdentity = true ∧ s.auth = .identity (.role rid d.contents.name) ∧
          s.permissions = rolePermissions st.adm st.inherited d.contents)) := by
  unfold St.assumeIdentity at ha
  cases i with
  | user ref =>
    simp only at ha
    split at ha
    · cases ha
    · cases ha
    · rename_i uid d hl
      split at ha
      · rename_i hp
        cases ha
        exact ⟨_, rfl, rfl, rfl, by simp [St.session, St.assumeUser, St.register], rfl,
          .inl ⟨ref, uid, d, rfl, hl, hp, rfl, rfl⟩⟩
      · cases ha
  | role ref =>
    simp only at ha
    split at ha
    · cases ha
    · cases ha
    · rename_i rid d hl
      split at ha
      · rename_i hp
        cases ha
        exact ⟨_, rfl, rfl, rfl, by simp [St.session, St.assumeRole, St.register], rfl,
          .inr ⟨ref, rid, d, rfl, hl, hp, rfl, rfl⟩⟩
      · cases ha

/-- **C48**: without permission an identity cannot be assumed. -/
theorem C48_assume_requires_permission (st : St) (h : Handle) (ref : Ref) (id : Id) :
    (∀ d, ref.load User.username st.adm.users = .ok (some (id, d)) →
      h.allowed (.user id) .assumeIdentity = false → st.assumeIdentity h (.user ref) = .error .permissionDenied) ∧
    (∀ d, ref.load Role.name st.adm.roles = .ok (some (id, d)) →
      h.allowed (.role id) .assumeIdentity = false → st.assumeIdentity h (.role ref) = .error .permissionDenied) := by
  constructor <;> intro d hd hp <;> simp [St.assumeIdentity, hd, hp]

/-- **C48**: an assumed role may do exactly what its groups are granted, and what everybody
authenticated may do. -/
theorem C48_role_permissions (adm : Adm) (hg : Ids adm.groups) (inh : Permissions) (role : Role)
    (r : Resource) (a : Action) :
    (rolePermissions adm inh role).allows r a = true ↔
      (∃ gid ∈ role.groups, GroupGrants adm gid r a) ∨ Inherited inh r a := by
  unfold rolePermissions
  rw [allows_merged, groups_grant hg]

/-- What `User::effective_permissions` computes. -/
theorem userPermissions_allows (adm : Adm) (hg : Ids adm.groups) (hr : Ids adm.roles) (inh : Permissions)
    (u : User) (r : Resource) (a : Action) :
    (userPermissions adm inh u).allows r a = true ↔
      (∃ gid ∈ u.groups, GroupGrants adm gid r a) ∨
      (u.roles ≠ [] ∧ ∃ rid ∈ u.groups, RoleGrants adm rid r a) ∨ Inherited inh r a := by
  unfold userPermissions
  simp only
  generalize hrg : (if u.roles.isEmpty = true then [] else
    unique ((adm.roles.getMany u.groups).flatMap (·.groups))) = rg
  have hmem : ∀ x, x ∈ rg ↔ u.roles ≠ [] ∧ ∃ rid ∈ u.groups, ∃ d, adm.roles.get rid = some d ∧
      x ∈ d.contents.groups := by
    intro x
    rw [← hrg]
    by_cases he : u.roles = []
    · simp [he]
    · simp only [List.isEmpty_iff, he, if_false, mem_unique, List.mem_flatMap, ne_eq, not_false_eq_true, true_and]
      constructor
      · rintro ⟨ro, hro, hx⟩
        obtain ⟨i, hi, d, hd, rfl⟩ := (mem_getMany hr).mp hro
        exact ⟨i, hi, d, hd, hx⟩
      · rintro ⟨i, hi, d, hd, hx⟩
        exact ⟨_, (mem_getMany hr).mpr ⟨i, hi, d, hd, rfl⟩, hx⟩
  have hrole : (∃ gid ∈ rg, GroupGrants adm gid r a) ↔
      (u.roles ≠ [] ∧ ∃ rid ∈ u.groups, RoleGrants adm rid r a) := by
    constructor
    · rintro ⟨g, hgm, hgr⟩
      obtain ⟨h1, rid, h2, d, h3, h4⟩ := (hmem g).mp hgm
      exact ⟨h1, rid, h2, d, h3, g, h4, hgr⟩
    · rintro ⟨h1, rid, h2, d, h3, g, h4, hgr⟩
      exact ⟨g, (hmem g).mpr ⟨h1, rid, h2, d, h3, h4⟩, hgr⟩
  rw [← hrole]
  split
  · rename_i he
    have he : rg = [] := List.isEmpty_iff.mp he
    rw [allows_merged, groups_grant hg, he]
    simp
  · rw [allows_merged, groups_grant hg]
    constructor
    · rintro (⟨g, hgm, hgr⟩ | h)
      · rw [mem_dedup, List.mem_append] at hgm
        rcases hgm with hgm | hgm
        · exact .inr (.inl ⟨g, hgm, hgr⟩)
        · exact .inl ⟨g, hgm, hgr⟩
      · exact .inr (.inr h)
    · rintro (⟨g, hgm, hgr⟩ | ⟨g, hgm, hgr⟩ | h)
      · exact .inl ⟨g, (mem_dedup _ _).mpr (List.mem_append_right _ hgm), hgr⟩
      · exact .inl ⟨g, (mem_dedup _ _).mpr (List.mem_append_left _ hgm), hgr⟩
      · exact .inr h

/-- **C48** (partial): a user without roles may do exactly what its groups are granted, and what everybody
authenticated may do. (Missing: users with roles, see `C48_violated_roles_ignored` and
`C48_violated_foreign_role`.) -/
theorem C48_user_permissions_partial (adm : Adm) (hg : Ids adm.groups) (hr : Ids adm.roles)
    (inh : Permissions) (u : User) (hu : u.roles = []) (r : Resource) (a : Action) :
    (userPermissions adm inh u).allows r a = true ↔ UserGrants adm u r a ∨ Inherited inh r a := by
  rw [userPermissions_allows adm hg hr]
  unfold UserGrants
  simp [hu]

/-- **C48** (partial): for a user with roles nothing is granted beyond its groups, the roles *whose ids are
the ids of its groups*, and what everybody authenticated may do. -/
theorem C48_user_permissions_bounded_partial (adm : Adm) (hg : Ids adm.groups) (hr : Ids adm.roles)
    (inh : Permissions) (u : User) (hu : ∀ rid ∈ u.groups, rid ∈ u.roles ∨ adm.roles.get rid = none)
    (r : Resource) (a : Action) (h : (userPermissions adm inh u).allows r a = true) :
    UserGrants adm u r a ∨ Inherited inh r a := by
  rw [userPermissions_allows adm hg hr] at h
  rcases h with h | ⟨-, rid, h1, h2⟩ | h
  · exact .inl (.inl h)
  · rcases hu rid h1 with h3 | h3
    · exact .inl (.inr ⟨rid, h3, h2⟩)
    · obtain ⟨d, hd, -⟩ := h2
      rw [h3] at hd; cases hd
  · exact .inr h

/-- **C48**: assuming a registered session gives that session's identity, its permissions and those the
caller passes; an unknown id or an already authenticated handle is refused. -/
theorem C48_assume_session (st : St) (h : Handle) (s : Session) :
    (∀ h', st.assumeSession h s = .ok h' → h.authentication = none ∧ ∃ e, h'.effective = some e ∧
      (s.id = none → e = s) ∧
      (∀ id, s.id = some id → ∃ reg, st.session id = some reg ∧ e.auth = reg.auth ∧ e.id = reg.id ∧
        ∀ r a, e.permissions.allows r a = true ↔
          s.permissions.allows r a = true ∨ reg.permissions.allows r a = true)) ∧
    (h.authentication ≠ none → st.assumeSession h s = .error .invalidCredentials) ∧
    (∀ id, s.id = some id → st.session id = none → st.assumeSession h s = .error .invalidCredentials) := by
  refine ⟨?_, ?_, ?_⟩
  · intro h' hh
    unfold St.assumeSession at hh
    split at hh
    · cases hh
    · rename_i hn
      refine ⟨hn, ?_⟩
      split at hh
      · rename_i hid
        cases hh
        exact ⟨s, rfl, fun _ => rfl, fun id hi => by rw [hid] at hi; cases hi⟩
      · rename_i id hid
        split at hh
        · cases hh
        · rename_i reg hreg
          cases hh
          refine ⟨_, rfl, (fun hi => by rw [hid] at hi; cases hi), ?_⟩
          intro id' hi
          rw [hid] at hi; cases hi
          refine ⟨reg, hreg, rfl, rfl, ?_⟩
          intro r a
          simp [Permissions.merged, Permissions.allows, List.any_append]
  · intro hn
    unfold St.assumeSession
    cases ha : h.authentication with
    | none => exact absurd ha hn
    | some _ => rfl
  · intro id hi hs
    unfold St.assumeSession
    cases ha : h.authentication with
    | none => simp [hi, hs]
    | some _ => rfl

/-! ## Histories -/

/-- A history and the handles it returned. -/
inductive Runs (H : Hashes) : St → List (Event × Except Err Handle) → St → Prop
  | nil (st) : Runs H st [] st
  | snoc {st st' es} (e : Event) (h : Runs H st es st') :
      Runs H st (es ++ [(e, (st'.next H e).1)]) (st'.next H e).2

/-- The ids of the sessions a history created. -/
def createdIds (es : List (Event × Except Err Handle)) : List Nat :=
  es.filterMap fun p => match p.2 with
    | .ok h => h.effective.bind (·.id)
    | .error _ => none

theorem register_facts (st : St) (auth : Auth) (p : Permissions) :
    (st.register auth p).2.lastId = st.lastId + 1 ∧
    (st.register auth p).1.effective.bind (·.id) = some (st.lastId + 1) ∧
    (∀ q ∈ (st.register auth p).2.sessions, q ∈ st.sessions ∨ q.1 = st.lastId + 1) := by
  refine ⟨rfl, rfl, ?_⟩
  intro q hq
  simp only [St.register, List.mem_cons] at hq
  rcases hq with rfl | hq
  · exact .inr rfl
  · exact .inl hq

/-- The state after a session was removed. -/
def St.without (st : St) (sid : Nat) : St := { st with sessions := st.sessions.filter fun p => p.1 ≠ sid }

/-- What answering a challenge can do: nothing, remove the session, or replace it by a new one. -/
theorem finish_cases (H : Hashes) (st : St) (h : Handle) (hash : Bytes) :
    (∃ e, st.finishToken H h hash = (.error e, st) ∧
      ∀ sid, h.authentication.bind (·.id) = some sid → st.session sid = none) ∨
    (∃ sid e, h.authentication.bind (·.id) = some sid ∧
      st.finishToken H h hash = (.error e, st.without sid)) ∨
    (∃ sid auth p, h.authentication.bind (·.id) = some sid ∧
      st.finishToken H h hash = (.ok ((st.without sid).register auth p).1, ((st.without sid).register auth p).2)) := by
  cases hsid : h.authentication.bind (·.id) with
  | none => exact .inl ⟨.invalidCredentials, by simp [St.finishToken, hsid], fun sid hs => by simp at hs⟩
  | some sid =>
    cases hs : st.session sid with
    | none =>
      exact .inl ⟨.invalidCredentials, by simp [St.finishToken, hsid, hs], fun sid' hs' => by simp at hs'; rw [← hs']; exact hs⟩
    | some s =>
      generalize hres : st.finishToken H h hash = res
      unfold St.finishToken at hres
      simp only [hsid, hs] at hres
      refine .inr ?_
      split at hres
      · split at hres
        · exact .inl ⟨sid, _, rfl, hres.symm⟩
        · split at hres
          · split at hres
            · split at hres
              · exact .inl ⟨sid, _, rfl, hres.symm⟩
              · exact .inr ⟨sid, _, _, rfl, hres.symm⟩
            · split at hres
              · exact .inl ⟨sid, _, rfl, hres.symm⟩
              · exact .inr ⟨sid, _, _, rfl, hres.symm⟩
          · exact .inl ⟨sid, _, rfl, hres.symm⟩
      · exact .inl ⟨sid, _, rfl, hres.symm⟩

theorem without_mem {st : St} {sid : Nat} {q : Nat × Session} (h : q ∈ (st.without sid).sessions) :
    q ∈ st.sessions ∧ q.1 ≠ sid := by
  simpa [St.without] using h

/-- One event creates at most one session, with the next id; session ids in use only come from that. -/
theorem next_ids (H : Hashes) (st : St) (e : Event) :
    let r := st.next H e
    (match r.1 with
      | .ok h => (h.effective.bind (·.id) = none ∧ r.2.lastId = st.lastId) ∨
          (h.effective.bind (·.id) = some (st.lastId + 1) ∧ r.2.lastId = st.lastId + 1)
      | .error _ => r.2.lastId = st.lastId) ∧
    (∀ q ∈ r.2.sessions, q ∈ st.sessions ∨ (q.1 = st.lastId + 1 ∧ r.2.lastId = st.lastId + 1)) := by
  have reg : ∀ (st₀ : St) (auth : Auth) (p : Permissions), st₀.lastId = st.lastId →
      (∀ q ∈ st₀.sessions, q ∈ st.sessions) →
      (((st₀.register auth p).1.effective.bind (·.id) = none ∧ (st₀.register auth p).2.lastId = st.lastId) ∨
        ((st₀.register auth p).1.effective.bind (·.id) = some (st.lastId + 1) ∧
          (st₀.register auth p).2.lastId = st.lastId + 1)) ∧
      (∀ q ∈ (st₀.register auth p).2.sessions, q ∈ st.sessions ∨
        (q.1 = st.lastId + 1 ∧ (st₀.register auth p).2.lastId = st.lastId + 1)) := by
    intro st₀ auth p hl hs
    obtain ⟨h1, h2, h3⟩ := register_facts st₀ auth p
    rw [hl] at h1 h2
    refine ⟨.inr ⟨h2, h1⟩, ?_⟩
    intro q hq
    rcases h3 q hq with h | h
    · exact .inl (hs q h)
    · exact .inr ⟨by rw [h, hl], h1⟩
  have self := fun auth p => reg st auth p rfl (fun _ hq => hq)
  cases e with
  | assumeIdentity h i =>
    simp only [St.next]
    cases hr : st.assumeIdentity h i with
    | error e => exact ⟨rfl, fun q hq => .inl hq⟩
    | ok r =>
      obtain ⟨h', st'⟩ := r
      unfold St.assumeIdentity at hr
      cases i with
      | user ref =>
        simp only at hr
        split at hr
        · cases hr
        · cases hr
        · split at hr
          · cases hr; exact self _ _
          · cases hr
      | role ref =>
        simp only at hr
        split at hr
        · cases hr
        · cases hr
        · split at hr
          · cases hr; exact self _ _
          · cases hr
  | password h u p =>
    simp only [St.next]
    cases hr : st.authenticatePassword H h u p with
    | error e => exact ⟨rfl, fun q hq => .inl hq⟩
    | ok r =>
      obtain ⟨h', st'⟩ := r
      unfold St.authenticatePassword at hr
      split at hr
      · cases hr
      · cases hr
      · split at hr
        · split at hr
          · cases hr
          · split at hr
            · cases hr; exact self _ _
            · cases hr
        · cases hr
  | beginToken h id t th n n' no =>
    simp only [St.next]
    cases hr : st.beginToken H h id t th n n' no with
    | error e => exact ⟨rfl, fun q hq => .inl hq⟩
    | ok r =>
      obtain ⟨h', st'⟩ := r
      unfold St.beginToken at hr
      split at hr
      · split at hr
        · cases hr
        · split at hr
          · cases hr
          · split at hr
            · cases hr; exact self _ _
            · cases hr
      · cases hr
  | finishToken h hash =>
    simp only [St.next]
    rcases finish_cases H st h hash with ⟨e, hr, -⟩ | ⟨sid, e, -, hr⟩ | ⟨sid, auth, p, -, hr⟩
    · rw [hr]; exact ⟨rfl, fun q hq => .inl hq⟩
    · rw [hr]; exact ⟨rfl, fun q hq => .inl (without_mem hq).1⟩
    · rw [hr]; exact reg (st.without sid) _ _ rfl (fun q hq => (without_mem hq).1)
  | drop sid others =>
    simp only [St.next, St.dropHandle]
    split
    · exact ⟨.inl ⟨rfl, rfl⟩, fun q hq => .inl (List.mem_filter.mp hq).1⟩
    · exact ⟨.inl ⟨rfl, rfl⟩, fun q hq => .inl hq⟩
  | records adm tokens => exact ⟨.inl ⟨rfl, rfl⟩, fun q hq => .inl hq⟩

/-- **C48**: every session created in a history has an id that no session had before (fewer than 2^64
sessions). -/
theorem C48_session_ids_are_fresh (H : Hashes) (st st' : St) (es : List (Event × Except Err Handle))
    (h : Runs H st es st') :
    (createdIds es).Pairwise (· < ·) ∧ (∀ i ∈ createdIds es, st.lastId < i ∧ i ≤ st'.lastId) ∧
      st.lastId ≤ st'.lastId := by
  induction h with
  | nil => simp [createdIds]
  | @snoc st' es e h ih =>
    obtain ⟨i1, i2, i3⟩ := ih
    have hn := (next_ids H st' e).1
    cases hr : (st'.next H e).1 with
    | error err =>
      rw [hr] at hn
      simp only at hn
      have : createdIds (es ++ [(e, Except.error err)]) = createdIds es := by
        simp [createdIds, List.filterMap_append]
      rw [this]
      exact ⟨i1, fun i hi => ⟨(i2 i hi).1, by rw [hn]; exact (i2 i hi).2⟩, by rw [hn]; exact i3⟩
    | ok hd =>
      rw [hr] at hn
      simp only at hn
      rcases hn with ⟨h1, h2⟩ | ⟨h1, h2⟩
      · have : createdIds (es ++ [(e, Except.ok hd)]) = createdIds es := by
          simp [createdIds, List.filterMap_append, h1]
        rw [this]
        exact ⟨i1, fun i hi => ⟨(i2 i hi).1, by rw [h2]; exact (i2 i hi).2⟩, by rw [h2]; exact i3⟩
      · have : createdIds (es ++ [(e, Except.ok hd)]) = createdIds es ++ [st'.lastId + 1] := by
          simp [createdIds, List.filterMap_append, h1]
        rw [this]
        refine ⟨List.pairwise_append.mpr ⟨i1, by simp, ?_⟩, ?_, by omega⟩
        · intro a ha b hb
          simp only [List.mem_singleton] at hb
          have := (i2 a ha).2
          omega
        · intro i hi
          simp only [List.mem_append, List.mem_singleton] at hi
          rcases hi with hi | rfl
          · have := i2 i hi; omega
          · omega

/-! ## C59: token authentication -/

/-- **C59**: a challenge is only given to somebody who proves knowledge of the token for a current time,
and it gives no permission to do anything. -/
theorem C59_challenge_is_powerless (H : Hashes) (st st' : St) (h h' : Handle) (id : Id) (time now now' : Nat)
    (timeHash nonce : Bytes) (hb : st.beginToken H h id time timeHash now now' nonce = .ok (h', st')) :
    (∀ r a, h'.allowed r a = false) ∧
    (∃ t, st.tokens id = some t ∧ H.requestTime time t.token = timeHash) ∧
    time < now + 301000000000 ∧ now < time + 301000000000 ∧
    h.allowed (.authToken id) .authenticateToken = true := by
  unfold St.beginToken at hb
  split at hb
  · rename_i hp
    split at hb
    · cases hb
    · rename_i ht
      split at hb
      · cases hb
      · rename_i t htok
        split at hb
        · rename_i hh
          cases hb
          refine ⟨fun r a => rfl, ⟨t, htok, hh.2⟩, ?_, ?_, hp⟩ <;> omega
        · cases hb
  · cases hb

/-- **C59**: finishing succeeds only on a registered challenge session, with the right response for the
token and this challenge's nonce and time; the new session is that of the token's identity. -/
theorem C59_success_requires_response (H : Hashes) (st st' : St) (h h' : Handle) (hash : Bytes)
    (hf : st.finishToken H h hash = (.ok h', st')) :
    ∃ sid s tid nonce ts t, h.authentication.bind (·.id) = some sid ∧ st.session sid = some s ∧
      s.auth = .challenge tid nonce ts ∧ st.tokens tid = some t ∧ H.response t.token nonce ts = hash ∧
      ∃ e, h'.effective = some e ∧ e.id = some (st.lastId + 1) ∧
        ((∃ uid d, t.identity = .user uid ∧ st.adm.users.get uid = some d ∧
            e.auth = .identity (.user uid d.contents.username) ∧
            e.permissions = userPermissions st.adm st.inherited d.contents) ∨
         (∃ rid d, t.identity = .role rid ∧ st.adm.roles.get rid = some d ∧
            e.auth = .identity (.role rid d.contents.name) ∧
            e.permissions = rolePermissions st.adm st.inherited d.contents)) := by
  unfold St.finishToken at hf
  split at hf
  · cases hf
  · rename_i sid hsid
    split at hf
    · cases hf
    · rename_i s hs
      simp only at hf
      split at hf
      · rename_i tid nonce ts hauth
        split at hf
        · cases hf
        · rename_i t ht
          split at hf
          · rename_i hr
            split at hf
            · rename_i uid hi
              split at hf
              · cases hf
              · rename_i d hd
                cases hf
                exact ⟨sid, s, tid, nonce, ts, t, hsid, hs, hauth, ht, hr.2, _, rfl, rfl,
                  .inl ⟨uid, d, hi, hd, rfl, rfl⟩⟩
            · rename_i rid hi
              split at hf
              · cases hf
              · rename_i d hd
                cases hf
                exact ⟨sid, s, tid, nonce, ts, t, hsid, hs, hauth, ht, hr.2, _, rfl, rfl,
                  .inr ⟨rid, d, hi, hd, rfl, rfl⟩⟩
          · cases hf
      · cases hf

/-- Registered session ids were handed out before. -/
def KnownIds (st : St) : Prop := ∀ q ∈ st.sessions, q.1 ≤ st.lastId

theorem session_none {st : St} {sid : Nat} : st.session sid = none ↔ ∀ q ∈ st.sessions, q.1 ≠ sid := by
  unfold St.session
  rw [Option.map_eq_none_iff, List.find?_eq_none]
  simp

theorem next_known (H : Hashes) (st : St) (e : Event) (h : KnownIds st) : KnownIds (st.next H e).2 := by
  obtain ⟨h1, h2⟩ := next_ids H st e
  have hmono : st.lastId ≤ (st.next H e).2.lastId := by
    cases hr : (st.next H e).1 with
    | error _ => rw [hr] at h1; simp only at h1; omega
    | ok _ => rw [hr] at h1; simp only at h1; omega
  intro q hq
  rcases h2 q hq with h' | ⟨h', h''⟩
  · have := h q h'; omega
  · omega

theorem runs_known (H : Hashes) {st st' : St} {es : List (Event × Except Err Handle)} (hr : Runs H st es st')
    (h : KnownIds st) : KnownIds st' := by
  induction hr with
  | nil => exact h
  | snoc e _ ih => exact next_known H _ e ih

/-- A session that is gone does not come back. -/
theorem runs_gone (H : Hashes) {st st' : St} {es : List (Event × Except Err Handle)} (hr : Runs H st es st')
    (sid : Nat) (hk : sid ≤ st.lastId) (h : st.session sid = none) : st'.session sid = none := by
  have key : st'.session sid = none ∧ sid ≤ st'.lastId := by
    induction hr with
    | nil => exact ⟨h, hk⟩
    | @snoc st' es e hr ih =>
      obtain ⟨i1, i2⟩ := ih
      obtain ⟨h1, h2⟩ := next_ids H st' e
      have hmono : st'.lastId ≤ (st'.next H e).2.lastId := by
        cases hr : (st'.next H e).1 with
        | error _ => rw [hr] at h1; simp only at h1; omega
        | ok _ => rw [hr] at h1; simp only at h1; omega
      refine ⟨session_none.mpr ?_, by omega⟩
      intro q hq
      rcases h2 q hq with h' | ⟨h', -⟩
      · exact session_none.mp i1 q h'
      · omega
  exact key.1

/-- **C59**: a challenge can be answered once: after an attempt on a challenge session, right or wrong,
no later attempt with it succeeds, whatever happens in between. -/
theorem C59_single_use (H : Hashes) (st st₂ : St) (h h₂ : Handle) (hash hash₂ : Bytes) (sid : Nat)
    (es : List (Event × Except Err Handle))
    (hid : h.authentication.bind (·.id) = some sid) (hle : sid ≤ st.lastId)
    (hrun : Runs H (st.finishToken H h hash).2 es st₂)
    (hid₂ : h₂.authentication.bind (·.id) = some sid) :
    st₂.finishToken H h₂ hash₂ = (.error .invalidCredentials, st₂) := by
  have hgone : (st.finishToken H h hash).2.session sid = none ∧ sid ≤ (st.finishToken H h hash).2.lastId := by
    have hmono := (next_ids H st (.finishToken h hash))
    simp only [St.next] at hmono
    have hl : st.lastId ≤ (st.finishToken H h hash).2.lastId := by
      cases hr : (st.finishToken H h hash).1 with
      | error _ => rw [hr] at hmono; have := hmono.1; simp only at this; omega
      | ok _ => rw [hr] at hmono; have := hmono.1; simp only at this; omega
    refine ⟨?_, by omega⟩
    rcases finish_cases H st h hash with ⟨e, hr, hn⟩ | ⟨sid', e, hs', hr⟩ | ⟨sid', auth, p, hs', hr⟩
    · rw [hr]; exact hn sid hid
    · rw [hr, session_none]
      rw [hid] at hs'; cases hs'
      exact fun q hq => (without_mem hq).2
    · rw [hr, session_none]
      rw [hid] at hs'; cases hs'
      intro q hq
      simp only [St.register, List.mem_cons] at hq
      rcases hq with rfl | hq
      · show (st.without sid).lastId + 1 ≠ sid
        have : (st.without sid).lastId = st.lastId := rfl
        omega
      · exact (without_mem hq).2
  have := runs_gone H hrun sid hgone.2 hgone.1
  unfold St.finishToken
  simp [hid₂, this]

/-- **C59**: somebody who has the token and a clock that is off by at most 300 seconds is let in, as the
token's identity. (`hl`, `hlen`: BLAKE3 hashes have 32 bytes.) -/
theorem C59_token_holder_succeeds (H : Hashes) (st : St) (tid : Id) (t : Token)
    (nonce : Bytes) (time now now' : Nat) (uid : Id) (d : Doc User)
    (hl : (H.requestTime time t.token).length = 32) (hlen : (H.response t.token nonce now').length = 32)
    (hclock : time ≤ now + 300000000000 ∧ now ≤ time + 300000000000)
    (ht : st.tokens tid = some t) (hi : t.identity = .user uid) (hu : st.adm.users.get uid = some d) :
    ∃ h₁ st₁ h₂ st₂, st.beginToken H .local tid time (H.requestTime time t.token) now now' nonce = .ok (h₁, st₁) ∧
      st₁.finishToken H h₁ (H.response t.token nonce now') = (.ok h₂, st₂) ∧
      ∃ s, h₂.effective = some s ∧ s.auth = .identity (.user uid d.contents.username) ∧
        s.permissions = userPermissions st.adm st.inherited d.contents := by
  have hc : ¬ (max time now - min time now) / 1000000000 > 300 := by omega
  refine ⟨(st.register (.challenge tid nonce now') []).1, (st.register (.challenge tid nonce now') []).2,
    ((((st.register (.challenge tid nonce now') []).2).without (st.lastId + 1)).assumeUser uid d.contents).1,
    ((((st.register (.challenge tid nonce now') []).2).without (st.lastId + 1)).assumeUser uid d.contents).2, ?_, ?_,
    _, rfl, rfl, rfl⟩
  · unfold St.beginToken
    have hp : Handle.local.allowed (.authToken tid) .authenticateToken = true := rfl
    rw [hp, if_pos rfl, if_neg hc, ht]
    simp [hl]
  · unfold St.finishToken
    simp [St.register, St.session, ht, hlen, hi, hu, St.without]

/-- **C59 is violated** in that a failed attempt is not without effect: answering a challenge with a handle
that is authenticated as an identity is refused but ends that session: its id can no longer be assumed. -/
theorem C59_violated_failed_attempt (H : Hashes) (st : St) (h : Handle) (s : Session) (sid : Nat) (i : Identity)
    (hash : Bytes) (hid : h.authentication.bind (·.id) = some sid) (hs : st.session sid = some s)
    (ha : s.auth = .identity i) :
    (st.finishToken H h hash).1 = .error .invalidCredentials ∧
      (st.finishToken H h hash).2.session sid = none := by
  unfold St.finishToken
  simp only [hid, hs, ha]
  refine ⟨trivial, ?_⟩
  rw [session_none]
  intro q hq
  simpa using (List.mem_filter.mp hq).2

/-! ## C60: passwords -/

/-- **C60**: password authentication succeeds iff the user exists, the caller may authenticate as it, a
password is set and the given one verifies; it then gives a session of that user. -/
theorem C60_password_authentication (H : Hashes) (st : St) (h : Handle) (ref : Ref) (password : Bytes) :
    (∃ h' st', st.authenticatePassword H h ref password = .ok (h', st')) ↔
      ∃ uid d hash, ref.load User.username st.adm.users = .ok (some (uid, d)) ∧
        h.allowed (.user uid) .authenticatePassword = true ∧ d.contents.argonHash = some hash ∧
        H.verify uid password hash = true := by
  unfold St.authenticatePassword
  constructor
  · rintro ⟨h', st', hh⟩
    split at hh
    · cases hh
    · cases hh
    · rename_i uid d hl
      split at hh
      · rename_i hp
        split at hh
        · cases hh
        · rename_i hash hha
          split at hh
          · rename_i hv
            exact ⟨uid, d, hash, hl, hp, hha, hv⟩
          · cases hh
      · cases hh
  · rintro ⟨uid, d, hash, hl, hp, hha, hv⟩
    refine ⟨(st.assumeUser uid d.contents).1, (st.assumeUser uid d.contents).2, ?_⟩
    simp [hl, hp, hha, hv]

theorem C60_session_is_the_users (H : Hashes) (st st' : St) (h h' : Handle) (ref : Ref) (password : Bytes)
    (hh : st.authenticatePassword H h ref password = .ok (h', st')) :
    ∃ uid d s, ref.load User.username st.adm.users = .ok (some (uid, d)) ∧ h'.effective = some s ∧
      s.auth = .identity (.user uid d.contents.username) ∧
      s.permissions = userPermissions st.adm st.inherited d.contents := by
  obtain ⟨uid, d, hash, hl, hp, hha, hv⟩ := (C60_password_authentication H st h ref password).mp ⟨_, _, hh⟩
  unfold St.authenticatePassword at hh
  simp only [hl, hp, hha, hv, if_true] at hh
  cases hh
  exact ⟨uid, d, _, hl, rfl, rfl, rfl⟩

/-- `set_user_password`, storage.rs:1097-1108, undisturbed: `hash` is what Argon2 computes for the user id
and the password. -/
def setPassword (adm : Adm) (ref : Ref) (hash : Id → Bytes) : Except Err Adm :=
  match ref.load User.username adm.users with
  | .error e => .error e
  | .ok none => .error .userNotFound
  | .ok (some (uid, d)) => updateUser adm uid d { d.contents with argonHash := some (hash uid) }

/-- **C60**: after setting a password, exactly the passwords that verify against it are accepted for the
user; other users and all memberships are as before. (`hv`: Argon2's verification accepts the hashed
password.) -/
theorem C60_set_then_authenticate (H : Hashes) (st : St) (uid : Id) (d : Doc User) (hash : Id → Bytes)
    (hu : st.adm.users.get uid = some d) :
    ∃ adm', setPassword st.adm (.key uid) hash = .ok adm' ∧
      (∀ p, (∃ r, St.authenticatePassword H { st with adm := adm' } .local (.key uid) p = .ok r) ↔
        H.verify uid p (hash uid) = true) ∧
      (∀ i, i ≠ uid → adm'.users.get i = st.adm.users.get i) ∧ adm'.memberships = st.adm.memberships := by
  have hl : Ref.load (.key uid) User.username st.adm.users = .ok (some (uid, d)) := by
    simp [Ref.load, Ref.resolve, hu]
  refine ⟨{ st.adm with users := st.adm.users.put uid ⟨d.rev + 1, { d.contents with argonHash := some (hash uid) }⟩ },
    by simp [setPassword, hl, updateUser, hu], ?_, fun i hi => get_put_ne hi, ?_⟩
  · intro p
    have hg := get_put_self (c := st.adm.users) (uid := uid)
      (d := ⟨d.rev + 1, { d.contents with argonHash := some (hash uid) }⟩) (by rw [hu]; rfl)
    have hl' : Ref.load (.key uid) User.username (st.adm.users.put uid ⟨d.rev + 1, { d.contents with argonHash := some (hash uid) }⟩) =
        .ok (some (uid, ⟨d.rev + 1, { d.contents with argonHash := some (hash uid) }⟩)) := by
      simp [Ref.load, Ref.resolve, hg]
    constructor
    · rintro ⟨⟨h', st'⟩, hh⟩
      obtain ⟨uid', d', h'', h1, -, h3, h4⟩ := (C60_password_authentication H _ _ _ _).mp ⟨_, _, hh⟩
      simp only at h1
      rw [hl'] at h1
      simp only [Except.ok.injEq, Option.some.injEq, Prod.mk.injEq] at h1
      obtain ⟨rfl, rfl⟩ := h1
      simp only [Option.some.injEq] at h3
      subst h3
      exact h4
    · intro hv
      obtain ⟨h', st', hh⟩ := (C60_password_authentication H
        { st with adm := { st.adm with users := st.adm.users.put uid ⟨d.rev + 1, { d.contents with argonHash := some (hash uid) }⟩ } }
        .local (.key uid) p).mpr ⟨uid, _, _, hl', rfl, rfl, hv⟩
      exact ⟨_, hh⟩
  · funext i
    rw [memberships_put hu]
    by_cases hi : i = uid
    · subst hi; simp [Adm.memberships, hu]
    · simp [hi]

/-! ## C61: sessions end with their last handle -/

/-- **C61 is violated**: a session of an identity never ends: however its handles are dropped and whatever
else happens, its id stays registered and can be assumed by every unauthenticated handle — unless a token
challenge response is sent on it. -/
theorem C61_violated_sessions_never_end (H : Hashes) (st st' : St) (es : List (Event × Except Err Handle))
    (hr : Runs H st es st') (hk : KnownIds st) (sid : Nat) (s : Session) (hs : st.session sid = some s)
    (hno : ∀ h hash r, (Event.finishToken h hash, r) ∈ es → h.authentication.bind (·.id) ≠ some sid) :
    st'.session sid = some s ∧
      ∃ h', st'.assumeSession .local ⟨some sid, .none, []⟩ = .ok h' ∧
        ∀ r a, s.permissions.allows r a = true → h'.allowed r a = true := by
  have key : st'.session sid = some s := by
    induction hr with
    | nil => exact hs
    | @snoc st' es e hr ih =>
      have ih := ih (fun h hash r hm => hno h hash r (List.mem_append_left _ hm))
      have hk' := runs_known H hr hk
      have hle : sid ≤ st'.lastId := by
        unfold St.session at ih
        rw [Option.map_eq_some_iff] at ih
        obtain ⟨q, hq, -⟩ := ih
        have h1 := hk' q (List.mem_of_find?_eq_some hq)
        have h2 := List.find?_some hq
        have := beq_iff_eq.mp h2
        omega
      have reg : ∀ (st₀ : St) (auth : Auth) (p : Permissions), st₀.session sid = some s →
          st₀.lastId = st'.lastId → (st₀.register auth p).2.session sid = some s := by
        intro st₀ auth p h0 hl
        have : ¬ st₀.lastId + 1 = sid := by omega
        unfold St.session St.register at *
        simp only [List.find?_cons]
        rw [beq_eq_false_iff_ne.mpr this]
        exact h0
      have filt : ∀ sid', sid' ≠ sid → St.session { st' with sessions := st'.sessions.filter fun p => p.1 ≠ sid' } sid = some s := by
        intro sid' hne
        unfold St.session at ih ⊢
        rw [← ih]
        congr 1
        simp only
        generalize st'.sessions = l
        induction l with
        | nil => rfl
        | cons q qs ihl =>
          by_cases hq : q.1 = sid'
          · have h2 : ¬ q.1 = sid := fun e => hne (hq.symm.trans e)
            rw [List.filter_cons_of_neg (by simp [hq]), List.find?_cons, beq_eq_false_iff_ne.mpr h2]
            exact ihl
          · rw [List.filter_cons_of_pos (by simp [hq]), List.find?_cons, List.find?_cons]
            cases q.1 == sid
            · exact ihl
            · rfl
      cases e with
      | assumeIdentity h i =>
        simp only [St.next]
        cases hr : st'.assumeIdentity h i with
        | error e => exact ih
        | ok r =>
          obtain ⟨h', st''⟩ := r
          unfold St.assumeIdentity at hr
          cases i with
          | user ref =>
            simp only at hr
            split at hr
            · cases hr
            · cases hr
            · split at hr
              · cases hr; exact reg _ _ _ ih rfl
              · cases hr
          | role ref =>
            simp only at hr
            split at hr
            · cases hr
            · cases hr
            · split at hr
              · cases hr; exact reg _ _ _ ih rfl
              · cases hr
      | password h u p =>
        simp only [St.next]
        cases hr : st'.authenticatePassword H h u p with
        | error e => exact ih
        | ok r =>
          obtain ⟨h', st''⟩ := r
          unfold St.authenticatePassword at hr
          split at hr
          · cases hr
          · cases hr
          · split at hr
            · split at hr
              · cases hr
              · split at hr
                · cases hr; exact reg _ _ _ ih rfl
                · cases hr
            · cases hr
      | beginToken h id t th n n' no =>
        simp only [St.next]
        cases hr : st'.beginToken H h id t th n n' no with
        | error e => exact ih
        | ok r =>
          obtain ⟨h', st''⟩ := r
          unfold St.beginToken at hr
          split at hr
          · split at hr
            · cases hr
            · split at hr
              · cases hr
              · split at hr
                · cases hr; exact reg _ _ _ ih rfl
                · cases hr
          · cases hr
      | finishToken h hash =>
        have hne := hno h hash _ (List.mem_append_right _ (List.mem_singleton.mpr rfl))
        simp only [St.next]
        rcases finish_cases H st' h hash with ⟨e, hr, -⟩ | ⟨sid', e, hs', hr⟩ | ⟨sid', auth, p, hs', hr⟩
        · rw [hr]; exact ih
        · rw [hr]; exact filt _ (fun e => hne (e ▸ hs'))
        · rw [hr]; exact reg (st'.without sid') _ _ (filt _ (fun e => hne (e ▸ hs'))) rfl
      | drop sid' others =>
        simp only [St.next, St.dropHandle]
        split
        · rename_i h0
          by_cases hne : sid' = sid
          · exfalso
            subst hne
            have : (st'.sessions.filter fun p => p.1 == sid') = [] := by
              apply List.length_eq_zero_iff.mp
              omega
            unfold St.session at ih
            rw [Option.map_eq_some_iff] at ih
            obtain ⟨q, hq, -⟩ := ih
            have h1 := List.mem_of_find?_eq_some hq
            have h2 := List.find?_some hq
            have h3 : q ∈ (st'.sessions.filter fun p => p.1 == sid') := List.mem_filter.mpr ⟨h1, h2⟩
            rw [this] at h3
            cases h3
          · exact filt _ hne
        · exact ih
      | records adm tokens => exact ih
  refine ⟨key, ⟨some s, some ⟨s.id, s.auth, Permissions.merged [[], s.permissions]⟩⟩, ?_, ?_⟩
  · simp only [St.assumeSession, Handle.local]
    rw [key]
  · intro r a h
    simpa [Handle.allowed, Permissions.merged] using h

section Example

/-- "bob" is in group 7, which allows nothing here; group 8 allows everything. -/
def exAdm2 (userRoles : List Id) : Adm where
  users := [(2#64, ⟨0, ⟨"bob", [7#64], userRoles, none⟩⟩)]
  roles := [(5#64, ⟨0, ⟨"superuser", [8#64]⟩⟩), (7#64, ⟨0, ⟨"owner", [8#64]⟩⟩)]
  groups := [(7#64, ⟨0, ⟨"guests", []⟩⟩), (8#64, ⟨0, ⟨"administrators", [fun _ _ => true]⟩⟩)]

/-- **C48 is violated**: the permissions of a user's roles are ignored. -/
theorem C48_violated_roles_ignored :
    ∃ (adm : Adm) (u : User) (r : Resource) (a : Action), Ids adm.groups ∧ Ids adm.roles ∧
      (∃ uid d, adm.users.get uid = some d ∧ d.contents = u) ∧
      UserGrants adm u r a ∧ (userPermissions adm [] u).allows r a = false := by
  refine ⟨{ exAdm2 [5#64] with users := [(2#64, ⟨0, ⟨"bob", [], [5#64], none⟩⟩)] }, ⟨"bob", [], [5#64], none⟩,
    .server, .createUser, by unfold Ids; decide, by unfold Ids; decide, ⟨2#64, _, rfl, rfl⟩, ?_, rfl⟩
  exact .inr ⟨5#64, by simp, _, rfl, 8#64, by simp, _, rfl, _, List.mem_singleton.mpr rfl, rfl⟩

/-- **C48 is violated**: a user with some role gets the permissions of a role it was never given, when that
role's id equals the id of one of the user's permission groups. -/
theorem C48_violated_foreign_role :
    ∃ (adm : Adm) (u : User) (r : Resource) (a : Action), Ids adm.groups ∧ Ids adm.roles ∧
      (∃ uid d, adm.users.get uid = some d ∧ d.contents = u) ∧
      ¬ UserGrants adm u r a ∧ (userPermissions adm [] u).allows r a = true := by
  refine ⟨exAdm2 [6#64], ⟨"bob", [7#64], [6#64], none⟩, .server, .createUser, by unfold Ids; decide, by unfold Ids; decide,
    ⟨2#64, _, rfl, rfl⟩, ?_, rfl⟩
  rintro (⟨gid, hg, d, hd, s, hs, -⟩ | ⟨rid, hr, d, hd, -⟩)
  · simp only [List.mem_singleton] at hg
    subst hg
    have : d = ⟨0, ⟨"guests", []⟩⟩ := by
      have : (exAdm2 [6#64]).groups.get 7#64 = some ⟨0, ⟨"guests", []⟩⟩ := rfl
      rw [this] at hd
      exact (Option.some.inj hd).symm
    subst this
    cases hs
  · simp only [List.mem_singleton] at hr
    subst hr
    cases hd

/-- **C48 is violated**: the database handles that a session's storage hands out with `database::<Schema>()`
and `admin()` carry no session: they allow everything, whatever the session allows. -/
theorem C48_violated_database_handles (h : Handle) (r : Resource) (a : Action) :
    h.database.allowed r a = true ∧ h.admin.allowed r a = true ∧
      h.databaseWithoutSchema.allowed r a = h.allowed r a := ⟨rfl, rfl, rfl⟩

/-- **C48 is violated**: a handle restricted with `with_effective_permissions` can assume a session with
more permissions than it has. -/
theorem C48_violated_restricted_handle (st : St) :
    ∃ h h' : Handle, Handle.local.restrict [] = some h ∧ (∀ r a, h.allowed r a = false) ∧
      st.assumeSession h ⟨none, .none, [fun _ _ => true]⟩ = .ok h' ∧ ∀ r a, h'.allowed r a = true :=
  ⟨_, _, rfl, fun _ _ => rfl, rfl, fun _ _ => rfl⟩

def exHashes : Hashes where
  verify := fun _ p h => p == h
  requestTime := fun _ t => List.replicate 31 0 ++ t
  response := fun t _ _ => List.replicate 31 1 ++ t

def exStore : St where
  adm := exAdm2 []
  tokens := fun i => if i = 3#64 then some ⟨.user 2#64, [9]⟩ else none
  inherited := [fun _ a => a == .other 1]
  sessions := []
  lastId := 0

/-- A session for "bob", by identity. -/
example : ∃ h st, exStore.assumeIdentity .local (.user (.name "bob")) = .ok (h, st) ∧
    h.allowed .server (.other 1) = true ∧ h.allowed .server .createUser = false ∧
    (st.assumeIdentity h (.role (.name "owner"))).toOption.isNone := ⟨_, _, rfl, rfl, rfl, rfl⟩

/-- A session for "bob", by token: challenge, response, and a second response that is refused. -/
example : ∃ h₁ st₁ h₂ st₂, exStore.beginToken exHashes .local 3#64 5 (List.replicate 31 0 ++ [9]) 6 7 [4] = .ok (h₁, st₁) ∧
    KnownIds st₁ ∧
    st₁.finishToken exHashes h₁ (List.replicate 31 1 ++ [9]) = (.ok h₂, st₂) ∧
    (st₂.finishToken exHashes h₁ (List.replicate 31 1 ++ [9])).1 = .error .invalidCredentials := by
  refine ⟨_, _, _, _, rfl, ?_, rfl, rfl⟩
  intro q hq
  have hq : q ∈ [(1, (⟨some 1, .challenge 3#64 [4] 7, []⟩ : Session))] := hq
  simp only [List.mem_singleton] at hq
  subst hq
  exact Nat.le_refl 1

end Example

end Bonsai.Ident
