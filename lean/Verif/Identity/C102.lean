import Verif.Identity.Groups
import Verif.Identity.C101
/-!
# C102: nobody gets the permissions of a group without being added to it

Creating a group changes nobody's permissions, if the groups in memberships exist.  Violated where one does not: after a
group was deleted that had members, or a member was added by a key that no group has, a new group is given its id.
-/
set_option linter.unusedSimpArgs false
set_option linter.unusedVariables false

namespace Bonsai.Ident
open Bonsai Bonsai.Names

/-! ## Specification -/

/-- All groups that users and roles are members of exist. -/
def Sound (adm : Adm) : Prop :=
  (∀ p, p ∈ adm.users → ∀ g, g ∈ p.2.contents.groups → adm.groups.get g ≠ none) ∧
    ∀ p, p ∈ adm.roles → ∀ g, g ∈ p.2.contents.groups → adm.groups.get g ≠ none

/-- An administrator who takes care: adds members to groups and roles that exist, and deletes groups without members. -/
def Careful (adm : Adm) : GroupOp → Prop
  | .member .addGroup _ x => ∀ g, x.resolve Group.name adm.groups = .ok (some g) → adm.groups.get g ≠ none
  | .role _ d => ∀ g, g ∈ d.contents.groups → adm.groups.get g ≠ none
  | .delete id => (∀ p, p ∈ adm.users → id ∉ p.2.contents.groups) ∧ ∀ p, p ∈ adm.roles → id ∉ p.2.contents.groups
  | _ => True

/-- Each operation in its turn. -/
def AllCareful (adm : Adm) : List GroupOp → Prop
  | [] => True
  | op :: ops => Careful adm op ∧ AllCareful (adm.groupOp op) ops

/-! ## Proofs -/

theorem createGroup_ok {adm adm' : Adm} {g : Group} {id : Id} (h : adm.createGroup g = .ok (id, adm')) :
    id.toNat = adm.groups.last + 1 ∧ adm.groups.get id = none ∧
      adm' = { adm with groups := adm.groups ++ [(id, ⟨0, g⟩)] } := by
  simp only [Adm.createGroup] at h
  split at h
  · cases h
  · split at h
    · rename_i hlt
      simp only [Except.ok.injEq, Prod.mk.injEq] at h
      obtain ⟨rfl, rfl⟩ := h
      have hn : (BitVec.ofNat 64 (adm.groups.last + 1)).toNat = adm.groups.last + 1 := by
        rw [BitVec.toNat_ofNat]; exact Nat.mod_eq_of_lt hlt
      refine ⟨hn, ?_, rfl⟩
      cases e : adm.groups.get (BitVec.ofNat 64 (adm.groups.last + 1)) with
      | none => rfl
      | some d =>
        have := le_last e
        rw [hn] at this
        omega
    · cases h

theorem getMany_append {α : Type} (c : Coll α) (id : Id) (d : Doc α) (ids : List Id) (h : id ∉ ids) :
    Coll.getMany (c ++ [(id, d)]) ids = c.getMany ids := by
  simp [Coll.getMany, List.filter_append, h]

theorem get_append {α : Type} (c : Coll α) (id x : Id) (d : Doc α) (h : c.get x ≠ none) :
    Coll.get (c ++ [(id, d)]) x ≠ none := by
  simp only [Coll.get, List.find?_append]
  cases e : c.find? (fun p => p.1 == x) with
  | none => exact absurd (by simp [Coll.get, e]) h
  | some p => simp

theorem named_get {α : Type} {nameOf : α → String} {c : Coll α} {n : String} {id : Id}
    (h : c.named nameOf n = some id) : c.get id ≠ none := by
  simp only [Coll.named, Option.map_eq_some_iff] at h
  obtain ⟨p, hp, rfl⟩ := h
  have hm := List.mem_of_find?_eq_some hp
  simp only [Coll.get, ne_eq, Option.map_eq_none_iff, List.find?_eq_none]
  exact fun h => h p hm (by simp)

theorem mem_getMany' {α : Type} {c : Coll α} {ids : List Id} {x : α} (h : x ∈ c.getMany ids) :
    ∃ p, p ∈ c ∧ p.2.contents = x := by
  simp only [Coll.getMany, List.mem_map, List.mem_filter] at h
  obtain ⟨p, hp, rfl⟩ := h
  exact ⟨p, hp.1, rfl⟩

theorem mem_put {α : Type} {c : Coll α} {id : Id} {d : Doc α} {p : Id × Doc α} (h : p ∈ c.put id d) :
    p = (id, d) ∨ p ∈ c := by
  simp only [Coll.put, List.mem_map] at h
  obtain ⟨q, hq, rfl⟩ := h
  split
  · exact Or.inl rfl
  · exact Or.inr hq

theorem mem_of_get {α : Type} {c : Coll α} {id : Id} {d : Doc α} (h : c.get id = some d) : (id, d) ∈ c := by
  simp only [Coll.get, Option.map_eq_some_iff] at h
  obtain ⟨p, hp, rfl⟩ := h
  have := List.find?_some hp
  simp only [beq_iff_eq] at this
  rw [← this]
  exact List.mem_of_find?_eq_some hp

theorem user_groups (adm : Adm) (inherited : Permissions) (u : User) : ∃ X : List Id,
    userPermissions adm inherited u = Permissions.merged
      (((if X.isEmpty then adm.groups.getMany u.groups else adm.groups.getMany (dedup (X ++ u.groups))).map
        (·.statements)) ++ [inherited]) := ⟨_, rfl⟩

theorem sound_member {adm adm' : Adm} (hs : Sound adm) {op : UserOp} {u x : Ref}
    (hc : Careful adm (.member op u x)) (h : adm.member op u x = .ok adm') : Sound adm' := by
  simp only [Adm.member] at h
  split at h
  · cases h
  · rename_i uid d k hl
    split at h
    · have hmem : (uid, d) ∈ adm.users ∧ op.resolveIn adm x = .ok (some k) := by
        simp only [loadFor] at hl
        split at hl
        · cases hl
        · rename_i o ho
          split at hl
          · cases hl
          · rename_i o' ho'
            split at hl
            · rename_i uid' d' k'
              simp only [Except.ok.injEq, Prod.mk.injEq] at hl
              obtain ⟨rfl, rfl, rfl⟩ := hl
              refine ⟨?_, ho'⟩
              simp only [Ref.load] at ho
              split at ho
              · cases ho
              · cases ho
              · rename_i k2 _
                simp only [Except.ok.injEq, Option.map_eq_some_iff, Prod.mk.injEq] at ho
                obtain ⟨d2, hd2, rfl, rfl⟩ := ho
                exact mem_of_get hd2
            · cases hl
      have hold := hs.1 _ hmem.1
      have hgroups : ∀ g, g ∈ (op.apply k d.contents).1.groups → adm.groups.get g ≠ none := by
        intro g hg
        cases op with
        | addGroup =>
          simp only [UserOp.apply] at hg
          split at hg
          · exact hold g hg
          · simp only [List.mem_append, List.mem_singleton] at hg
            rcases hg with hg | rfl
            · exact hold g hg
            · exact hc _ hmem.2
        | removeGroup =>
          simp only [UserOp.apply, List.mem_filter] at hg
          exact hold g hg.1
        | addRole =>
          simp only [UserOp.apply] at hg
          split at hg <;> exact hold g hg
        | removeRole => exact hold g hg
      simp only [updateUser] at h
      split at h
      · cases h
      · split at h
        · cases h
          refine ⟨?_, hs.2⟩
          intro p hp g hg
          rcases mem_put hp with rfl | hp
          · exact hgroups g hg
          · exact hs.1 p hp g hg
        · cases h
    · cases h; exact hs

theorem sound_op {adm : Adm} (hs : Sound adm) (op : GroupOp) (hc : Careful adm op) : Sound (adm.groupOp op) := by
  cases op with
  | create g =>
    simp only [Adm.groupOp]
    cases e : adm.createGroup g with
    | error _ => exact hs
    | ok p =>
      obtain ⟨id, a⟩ := p
      obtain ⟨_, _, rfl⟩ := createGroup_ok e
      exact ⟨fun p hp g hg => get_append _ _ _ _ (hs.1 p hp g hg), fun p hp g hg => get_append _ _ _ _ (hs.2 p hp g hg)⟩
  | delete id =>
    refine ⟨fun p hp g hg => ?_, fun p hp g hg => ?_⟩
    · have : g ≠ id := by rintro rfl; exact hc.1 p hp hg
      simp only [Adm.groupOp, get_del _ this]
      exact hs.1 p hp g hg
    · have : g ≠ id := by rintro rfl; exact hc.2 p hp hg
      simp only [Adm.groupOp, get_del _ this]
      exact hs.2 p hp g hg
  | update id d =>
    have : ∀ g, adm.groups.get g ≠ none → (adm.groups.put id d).get g ≠ none := by
      intro g hg
      rw [get_put]
      split
      · cases e : adm.groups.get g with
        | none => exact absurd e hg
        | some _ => simp
      · exact hg
    exact ⟨fun p hp g hg => this _ (hs.1 p hp g hg), fun p hp g hg => this _ (hs.2 p hp g hg)⟩
  | member o u x =>
    simp only [Adm.groupOp]
    cases e : adm.member o u x with
    | error _ => exact hs
    | ok a => exact sound_member hs hc e
  | role id d =>
    refine ⟨hs.1, fun p hp g hg => ?_⟩
    rcases mem_put hp with rfl | hp
    · exact hc g hg
    · exact hs.2 p hp g hg
  | createUser uid n =>
    simp only [Adm.groupOp, createUser]
    split
    · rename_i h
      split at h
      · cases h
      · split at h
        · cases h
        · cases h
          refine ⟨fun p hp g hg => ?_, hs.2⟩
          simp only [List.mem_append, List.mem_singleton] at hp
          rcases hp with hp | rfl
          · exact hs.1 p hp g hg
          · cases hg
    · exact hs
  | deleteUser uid =>
    refine ⟨fun p hp g hg => ?_, hs.2⟩
    exact hs.1 p (List.mem_filter.1 hp).1 g hg

theorem sound_ops : ∀ (ops : List GroupOp) (adm : Adm), Sound adm → AllCareful adm ops → Sound (adm.groupOps ops)
  | [], _, hs, _ => hs
  | op :: ops, adm, hs, hc => sound_ops ops _ (sound_op hs op hc.1) hc.2

/-! ## New groups -/

/-- After any history of an administrator who takes care, creating a group leaves the permissions of all users and roles as
they were.  Missing: without care, `C102_violated_reissue` and `C102_violated_key`. -/
theorem C102_create_partial (adm adm' : Adm) (hs : Sound adm) (ops : List GroupOp) (hc : AllCareful adm ops)
    (inherited : Permissions) (g : Group) (id : Id) (h : (adm.groupOps ops).createGroup g = .ok (id, adm')) :
    (∀ uid d, (adm.groupOps ops).users.get uid = some d → adm'.users.get uid = some d ∧
      userPermissions adm' inherited d.contents = userPermissions (adm.groupOps ops) inherited d.contents) ∧
    (∀ rid d, (adm.groupOps ops).roles.get rid = some d → adm'.roles.get rid = some d ∧
      rolePermissions adm' inherited d.contents = rolePermissions (adm.groupOps ops) inherited d.contents) := by
  have hs := sound_ops ops adm hs hc
  generalize adm.groupOps ops = a at *
  obtain ⟨_, hn, rfl⟩ := createGroup_ok h
  constructor
  · intro uid d hd
    refine ⟨hd, ?_⟩
    have h1 : id ∉ d.contents.groups := fun hm => hs.1 _ (mem_of_get hd) id hm hn
    have h2 : id ∉ unique ((a.roles.getMany d.contents.groups).flatMap (·.groups)) := by
      rw [mem_unique, List.mem_flatMap]
      rintro ⟨r, hr, hm⟩
      obtain ⟨p, hp, rfl⟩ := mem_getMany' hr
      exact hs.2 p hp id hm hn
    have h3 : id ∉ dedup (unique ((a.roles.getMany d.contents.groups).flatMap (·.groups)) ++ d.contents.groups) := by
      rw [mem_dedup, List.mem_append]
      exact fun hm => hm.elim h2 h1
    have h4 : id ∉ dedup ((if d.contents.roles.isEmpty = true then [] else
        unique ((a.roles.getMany d.contents.groups).flatMap (·.groups))) ++ d.contents.groups) := by
      split
      · rw [mem_dedup]; simpa using h1
      · exact h3
    simp only [userPermissions, getMany_append _ _ _ _ h1, getMany_append _ _ _ _ h4]
  · intro rid d hd
    refine ⟨hd, ?_⟩
    have h1 : id ∉ d.contents.groups := fun hm => hs.2 _ (mem_of_get hd) id hm hn
    simp only [rolePermissions, getMany_append _ _ _ _ h1]

/-- Adding a member to a group by the group's name is careful always. -/
theorem C102_names (adm : Adm) (u : Ref) (n : String) : Careful adm (.member .addGroup u (.name n)) := by
  intro g hg
  simp only [Ref.resolve, Except.ok.injEq] at hg
  exact named_get hg

/-- Deleting a group takes its permissions from everybody: what somebody has then is of a group that remains. -/
theorem C102_delete (adm : Adm) (id : Id) (inherited : Permissions) (u : User) (s : Statement)
    (h : s ∈ userPermissions (adm.groupOp (.delete id)) inherited u) :
    s ∈ inherited ∨ ∃ p, p ∈ adm.groups ∧ p.1 ≠ id ∧ s ∈ p.2.contents.statements := by
  obtain ⟨X, hX⟩ := user_groups (adm.groupOp (.delete id)) inherited u
  rw [hX] at h
  simp only [Permissions.merged, List.mem_flatten, List.mem_append, List.mem_map, List.mem_singleton] at h
  obtain ⟨l, ⟨g, hg, rfl⟩ | rfl, hl⟩ := h
  · refine Or.inr ?_
    have : ∃ p, p ∈ adm.groups.del id ∧ p.2.contents = g := by
      split at hg <;> exact mem_getMany' hg
    obtain ⟨p, hp, rfl⟩ := this
    have := List.mem_filter.1 hp
    exact ⟨p, this.1, by simpa using this.2, hl⟩
  · exact Or.inl hl

/-! ## What is violated -/

/-- What the members of a group with the id `k` may do. -/
theorem mem_permissions {adm : Adm} {k : Id} {d : Doc Group} (hk : adm.groups.get k = some d) (inherited : Permissions)
    (u : User) (hu : k ∈ u.groups) (s : Statement) (hs : s ∈ d.contents.statements) :
    s ∈ userPermissions adm inherited u := by
  have hm := mem_of_get hk
  obtain ⟨X, hX⟩ := user_groups adm inherited u
  rw [hX]
  simp only [Permissions.merged, List.mem_flatten]
  refine ⟨d.contents.statements, List.mem_append_left _ (List.mem_map.2 ⟨d.contents, ?_, rfl⟩), hs⟩
  split
  · simp only [Coll.getMany, List.mem_map, List.mem_filter]
    exact ⟨(k, d), ⟨hm, by simpa using hu⟩, rfl⟩
  · simp only [Coll.getMany, List.mem_map, List.mem_filter]
    exact ⟨(k, d), ⟨hm, by simp [mem_dedup, hu]⟩, rfl⟩

theorem createGroup_next (adm : Adm) (g : Group) (k : Id) (hk : k.toNat = adm.groups.last + 1)
    (hn : adm.groups.named Group.name g.name = none) :
    ∃ adm', adm.createGroup g = .ok (k, adm') ∧ adm'.groups.get k = some ⟨0, g⟩ ∧ adm'.users = adm.users := by
  have hlt : adm.groups.last + 1 < 2 ^ 64 := by rw [← hk]; exact k.isLt
  have hkk : BitVec.ofNat 64 (adm.groups.last + 1) = k := by
    apply BitVec.eq_of_toNat_eq
    rw [BitVec.toNat_ofNat, Nat.mod_eq_of_lt hlt, hk]
  refine ⟨{ adm with groups := adm.groups ++ [(k, ⟨0, g⟩)] }, ?_, ?_, rfl⟩
  · simp only [Adm.createGroup, hn, Option.isSome_none, Bool.false_eq_true, if_false, hlt, if_true, hkk]
  · have : adm.groups.find? (fun p => p.1 == k) = none := by
      cases e : adm.groups.find? (fun p => p.1 == k) with
      | none => rfl
      | some p =>
        have hg : adm.groups.get k = some p.2 := by simp [Coll.get, e]
        have := le_last hg
        omega
    simp [Coll.get, List.find?_append, this]

/-- A group that had members is deleted and another created: its permissions are those members', who were never added to
it. -/
theorem C102_violated_reissue (adm : Adm) (k uid : Id) (d : Doc User) (hd : adm.users.get uid = some d)
    (hm : k ∈ d.contents.groups) (hlast : k.toNat = (adm.groups.del k).last + 1) (g : Group)
    (hn : (adm.groups.del k).named Group.name g.name = none) (inherited : Permissions) :
    ∃ adm', (adm.groupOp (.delete k)).createGroup g = .ok (k, adm') ∧ adm'.users.get uid = some d ∧
      ∀ s, s ∈ g.statements → s ∈ userPermissions adm' inherited d.contents := by
  obtain ⟨adm', h1, h2, h3⟩ := createGroup_next (adm.groupOp (.delete k)) g k hlast hn
  refine ⟨adm', h1, by rw [h3]; exact hd, fun s hs => mem_permissions h2 inherited _ hm s hs⟩

/-- A user is added, by a key, to a group that does not exist, and has the permissions of the one that is created next. -/
theorem C102_violated_key (adm : Adm) (k uid : Id) (d : Doc User) (hd : adm.users.get uid = some d)
    (hm : k ∉ d.contents.groups) (hlast : k.toNat = adm.groups.last + 1) (g : Group)
    (hn : adm.groups.named Group.name g.name = none) (inherited : Permissions) :
    adm.groups.get k = none ∧ ∃ adm₁ adm₂ d', adm.member .addGroup (.key uid) (.key k) = .ok adm₁ ∧
      adm₁.createGroup g = .ok (k, adm₂) ∧ adm₂.users.get uid = some d' ∧
      ∀ s, s ∈ g.statements → s ∈ userPermissions adm₂ inherited d'.contents := by
  constructor
  · cases e : adm.groups.get k with
    | none => rfl
    | some x => have := le_last e; omega
  · let d' : Doc User := ⟨d.rev + 1, { d.contents with groups := d.contents.groups ++ [k] }⟩
    have h1 : adm.member .addGroup (.key uid) (.key k) = .ok { adm with users := adm.users.put uid d' } := by
      simp [Adm.member, loadFor, Ref.load, Ref.resolve, UserOp.resolveIn, UserOp.apply, updateUser, hd, hm, d']
    obtain ⟨adm₂, h2, h3, h4⟩ := createGroup_next { adm with users := adm.users.put uid d' } g k hlast hn
    refine ⟨_, adm₂, d', h1, h2, ?_, fun s hs => mem_permissions h3 inherited _ (by simp [d']) s hs⟩
    rw [h4]
    simp [get_put, hd]

/-! ## Examples -/

def grpEmpty : Adm := ⟨[], [], []⟩

example : Sound grpEmpty := ⟨nofun, nofun⟩

/-- Two groups, and a user in the second. -/
def grpUser : Adm := grpEmpty.groupOps [.create ⟨"readers", []⟩, .create ⟨"writers", []⟩, .createUser 1 "ann",
  .member .addGroup (.name "ann") (.name "writers")]

example : AllCareful grpEmpty [.create ⟨"readers", []⟩, .create ⟨"writers", []⟩, .createUser 1 "ann",
    .member .addGroup (.name "ann") (.name "writers")] :=
  ⟨trivial, trivial, trivial, C102_names _ _ _, trivial⟩

example : (∃ d, grpUser.users.get 1 = some d ∧ (2 : Id) ∈ d.contents.groups) ∧
    (2 : Id).toNat = (grpUser.groups.del 2).last + 1 ∧ (grpUser.groups.del 2).named Group.name "admins" = none := by
  exact ⟨⟨_, rfl, by decide⟩, rfl, rfl⟩

end Bonsai.Ident
