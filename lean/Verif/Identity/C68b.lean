import Verif.Identity.C68

/-!
# C68: undisturbed calls, what the code reveals and where it acts without permission
-/
set_option linter.unusedSimpArgs false
set_option linter.unusedSectionVars false
set_option linter.unusedVariables false

namespace Bonsai.Ident
open Bonsai Bonsai.Names

variable {S : Type} [DecidableEq S]

/-- A call that ended at once or whose steps ran one after the other, without disturbance, changes only
what is permitted, also when the user is named by its username. -/
theorem C68_alone (σ : Srv S) (h : Handle) (c : Call S) (adm : Adm)
    (hc : callAlone σ.st.adm h c = some (.ok adm)) :
    Authorised h σ { σ with st := { σ.st with adm := adm } } := by
  unfold callAlone at hc
  split at hc
  · cases hc
  · cases hc
  · cases hc
    exact authorised_same h σ rfl rfl rfl rfl
  · rename_i f hs
    simp only [Option.some.injEq] at hc
    -- the flight as it is after its load
    have key : ∀ f' : Flight, f'.Ok h → f'.next σ.st.adm = .ends (.ok adm) →
        Authorised h σ { σ with st := { σ.st with adm := adm } } := fun f' h1 h2 =>
      ends_authorised σ.flying h1 h2
    cases c with
    | deleteUser r =>
      simp only [start] at hs
      split at hs
      · cases hs
      · rename_i hk
        cases hs
        obtain ⟨uid, h1, h2⟩ := checkUser_ok hk
        simp only [Flight.finish, Flight.next] at hc
        cases hl : loadUser σ.st.adm r with
        | error e => rw [hl] at hc; cases hc
        | ok p =>
          obtain ⟨uid', d⟩ := p
          rw [hl] at hc
          have h3 := (loadUser_ok hl).1
          rw [h1] at h3
          cases h3
          exact key (.deleteLoaded uid d) h2 (by simpa [Flight.next] using hc)
    | setPassword r hash =>
      simp only [start] at hs
      split at hs
      · cases hs
      · rename_i hk
        cases hs
        obtain ⟨uid, h1, h2⟩ := checkUser_ok hk
        simp only [Flight.finish, Flight.next] at hc
        cases hl : loadUser σ.st.adm r with
        | error e => rw [hl] at hc; cases hc
        | ok p =>
          obtain ⟨uid', d⟩ := p
          rw [hl] at hc
          have h3 := (loadUser_ok hl).1
          rw [h1] at h3
          cases h3
          exact key (.passwordLoaded uid d hash) h2 (by simpa [Flight.next] using hc)
    | member op u o =>
      have hid : (Call.member op u o : Call S).ById := trivial
      have hok := start_ok hid hs
      simp only [start] at hs
      split at hs
      · cases hs
      · split at hs
        · split at hs
          · cases hs
            refine key _ hok ?_
            simpa [Flight.finish, Flight.next] using hc
          · cases hs
        · cases hs
    | _ => cases hs

/-- **C68**: with its documented permission, `delete_user` of an existing user, undisturbed, deletes exactly
that user; `set_user_password` sets exactly its password. -/
theorem C68_permitted_user (adm : Adm) (h : Handle) (r : Ref) (uid : Id) (d : Doc User) (hash : Id → Bytes)
    (hr : Denotes User.username adm.users r uid) (hu : adm.users.get uid = some d) :
    (h.allowed (.user uid) .deleteUser = true →
      callAlone adm h (.deleteUser r : Call S) = some (.ok { adm with users := adm.users.del uid })) ∧
    (h.allowed (.user uid) .setPassword = true →
      callAlone adm h (.setPassword r hash : Call S) = some (.ok { adm with
        users := adm.users.put uid ⟨d.rev + 1, { d.contents with argonHash := some (hash uid) }⟩ })) := by
  have h1 := resolve_denotes hr
  have h2 : loadUser adm r = .ok (uid, d) := by simp [loadUser, Ref.load, h1, hu]
  constructor <;> intro hp
  · simp [callAlone, start, checkUser, h1, hp, Flight.finish, Flight.next, h2, removeUser, hu]
  · simp [callAlone, start, checkUser, h1, hp, Flight.finish, Flight.next, h2, updateUser, hu]

/-- **C68**: with the documented permission the other calls do what they do for a caller without a session. -/
theorem C68_permitted (H : Hashes) (σ : Srv S) (h : Handle) (c : Call S) (re : Resource) (a : Action)
    (hn : Needed σ.st.adm c re a) (hp : h.allowed re a = true) :
    σ.atomic H h c = σ.atomic H .local c ∧ start σ.st.adm h c = start σ.st.adm .local c := by
  have hx : ∀ re a, Handle.local.allowed re a = true := fun _ _ => rfl
  have user : ∀ (u : Ref) (uid : Id), Denotes User.username σ.st.adm.users u uid →
      ∀ d, u.load User.username σ.st.adm.users = .ok (some d) → d.1 = uid := by
    intro u uid h1 d h2
    have h3 := resolve_denotes h1
    have h4 := load_resolve (x := d.1) (d := d.2) h2
    rw [h3] at h4
    cases h4
    rfl
  cases c with
  | createDatabase n s o f => obtain ⟨rfl, rfl⟩ := hn; simp [Srv.atomic, guarded, hp, hx, start]
  | deleteDatabase n f => obtain ⟨rfl, rfl⟩ := hn; simp [Srv.atomic, guarded, hp, hx, start]
  | listDatabases => obtain ⟨rfl, rfl⟩ := hn; simp [Srv.atomic, guarded, hp, hx, start]
  | listSchemas => obtain ⟨rfl, rfl⟩ := hn; simp [Srv.atomic, guarded, hp, hx, start]
  | createUser n uid => obtain ⟨rfl, rfl⟩ := hn; simp [Srv.atomic, guarded, hp, hx, start]
  | deleteUser u =>
    obtain ⟨⟨uid, h1, rfl⟩, rfl⟩ := hn
    have h3 := resolve_denotes h1
    refine ⟨rfl, ?_⟩
    simp [start, checkUser, h3, hp, hx]
  | setPassword u hash =>
    obtain ⟨⟨uid, h1, rfl⟩, rfl⟩ := hn
    have h3 := resolve_denotes h1
    refine ⟨rfl, ?_⟩
    simp [start, checkUser, h3, hp, hx]
  | member op u o =>
    obtain ⟨⟨uid, h1, rfl⟩, rfl⟩ := hn
    refine ⟨rfl, ?_⟩
    simp only [start]
    cases hl : loadFor σ.st.adm op u o with
    | error e => rfl
    | ok p =>
      obtain ⟨uid', d, x⟩ := p
      have := user u uid h1 (uid', d) (loadFor_load hl)
      simp only at this
      subst this
      simp [hp, hx]
  | assumeIdentity i =>
    refine ⟨?_, rfl⟩
    show some (sessionAnswer σ (orSame σ.st _)) = some (sessionAnswer σ (orSame σ.st _))
    congr 3
    cases i with
    | user u =>
      obtain ⟨⟨uid, h1, rfl⟩, rfl⟩ := hn
      simp only [St.assumeIdentity]
      cases hl : u.load User.username σ.st.adm.users with
      | error e => rfl
      | ok o =>
        cases o with
        | none => rfl
        | some d =>
          have := user u uid h1 d hl
          subst this
          have hx : Handle.local.allowed (.user d.1) .assumeIdentity = true := rfl
          simp [hp, hx]
    | role u =>
      obtain ⟨⟨rid, h1, rfl⟩, rfl⟩ := hn
      simp only [St.assumeIdentity]
      cases hl : u.load Role.name σ.st.adm.roles with
      | error e => rfl
      | ok o =>
        cases o with
        | none => rfl
        | some d =>
          have h3 := resolve_denotes h1
          have h4 := load_resolve (x := d.1) (d := d.2) hl
          rw [h3] at h4
          cases h4
          have hx : Handle.local.allowed (.role d.1) .assumeIdentity = true := rfl
          simp [hp, hx]
  | password u p =>
    refine ⟨?_, rfl⟩
    show some (sessionAnswer σ (orSame σ.st _)) = some (sessionAnswer σ (orSame σ.st _))
    congr 3
    obtain ⟨⟨uid, h1, rfl⟩, rfl⟩ := hn
    simp only [St.authenticatePassword]
    cases hl : u.load User.username σ.st.adm.users with
    | error e => rfl
    | ok o =>
      cases o with
      | none => rfl
      | some d =>
        have := user u uid h1 d hl
        subst this
        have hx : Handle.local.allowed (.user d.1) .authenticatePassword = true := rfl
        simp [hp, hx]
  | beginToken id t th n n' no =>
    refine ⟨?_, rfl⟩
    show some (sessionAnswer σ (orSame σ.st _)) = some (sessionAnswer σ (orSame σ.st _))
    congr 3
    obtain ⟨rfl, rfl⟩ := hn
    have hx : Handle.local.allowed (.authToken id) .authenticateToken = true := rfl
    simp only [St.beginToken, hp, hx, if_true]
  | finishToken hash => exact absurd hn (by simp [Needed])

/-- The calls whose permission does not depend on stored data. -/
def Call.Plain : Call S → Prop
  | .createDatabase .. | .deleteDatabase .. | .listDatabases | .listSchemas | .createUser .. | .beginToken .. => True
  | _ => False

/-- **C68** (partial): without permission these calls reveal nothing: the answer is `PermissionDenied`
whatever is stored. Calls that name a user, role or group are not covered: see
`C68_violated_reveals_users`. -/
theorem C68_reveals_nothing_partial (H : Hashes) (σ : Srv S) (h : Handle) (c : Call S) (hc : c.Plain)
    (hd : ∀ re a, Needed σ.st.adm c re a → h.allowed re a = false) :
    σ.atomic H h c = some (.error .permissionDenied, σ) := by
  cases c with
  | createDatabase n s o f => simp [Srv.atomic, guarded, hd _ _ ⟨rfl, rfl⟩]
  | deleteDatabase n f => simp [Srv.atomic, guarded, hd _ _ ⟨rfl, rfl⟩]
  | listDatabases => simp [Srv.atomic, guarded, hd _ _ ⟨rfl, rfl⟩]
  | listSchemas => simp [Srv.atomic, guarded, hd _ _ ⟨rfl, rfl⟩]
  | createUser n uid => simp [Srv.atomic, guarded, hd _ _ ⟨rfl, rfl⟩]
  | beginToken id t th n n' no =>
    have := hd (.authToken id) .authenticateToken ⟨rfl, rfl⟩
    show some (sessionAnswer σ (orSame σ.st (σ.st.beginToken H h id t th n n' no))) = _
    simp only [St.beginToken, this]
    rfl
  | _ => exact absurd hc (by simp [Call.Plain])

/-! ## Violations -/

/-- Nothing is permitted. -/
def powerless : Handle := ⟨none, some ⟨none, .none, []⟩⟩

theorem powerless_denied (re : Resource) (a : Action) : powerless.allowed re a = false := rfl

/-- **C68 violated**: a session without any permission learns whether a username exists, from any of these
calls, and whether a permission group exists: the name is looked up before the permission is checked
(storage.rs:1288-1296, 1306-1314, 1338-1341, 1367-1371, 742-749). -/
theorem C68_violated_reveals_users (H : Hashes) (c : Call Unit)
    (hc : (∃ n, c = .deleteUser (.name n)) ∨ (∃ n hash, c = .setPassword (.name n) hash) ∨
      (∃ n p, c = .password (.name n) p) ∨ (∃ n, c = .assumeIdentity (.user (.name n))) ∨
      ∃ op k g, (op = .addGroup ∨ op = .removeGroup) ∧ c = .member op (.key k) (.name g)) :
    ∃ σ₁ σ₂ : Srv Unit, ∃ r₁ r₂, CallStep H σ₁ powerless (some c) (some (.error r₁)) σ₁ ∧
      CallStep H σ₂ powerless (some c) (some (.error r₂)) σ₂ ∧ r₁ = .permissionDenied ∧ r₂ ≠ .permissionDenied := by
  let empty : Srv Unit := ⟨⟨⟨[], [], []⟩, fun _ => none, [], [], 0⟩,
    ⟨[], fun _ => none, fun _ => none, fun _ => none, fun _ => false, fun _ => false⟩, []⟩
  let one (n : String) : Srv Unit := ⟨⟨⟨[(1#64, ⟨0, ⟨n, [], [], none⟩⟩)], [], []⟩, fun _ => none, [], [], 0⟩,
    ⟨[], fun _ => none, fun _ => none, fun _ => none, fun _ => false, fun _ => false⟩, []⟩
  have named : ∀ n, Ref.resolve (.name n) User.username (one n).st.adm.users = .ok (some 1#64) := by
    intro n
    simp [Ref.resolve, Coll.named, one]
  have loaded : ∀ n, Ref.load (.name n) User.username (one n).st.adm.users =
      .ok (some (1#64, ⟨0, ⟨n, [], [], none⟩⟩)) := by
    intro n
    simp only [Ref.load, named]
    simp [Coll.get, one]
  have none' : ∀ n, Ref.resolve (.name n) User.username empty.st.adm.users = .ok none := fun n => rfl
  have noload : ∀ n, Ref.load (.name n) User.username empty.st.adm.users = .ok none := fun n => rfl
  rcases hc with ⟨n, rfl⟩ | ⟨n, hash, rfl⟩ | ⟨n, p, rfl⟩ | ⟨n, rfl⟩ | ⟨op, k, g, hop, rfl⟩
  · refine ⟨one n, empty, .permissionDenied, .userNotFound, ?_, ?_, rfl, by simp⟩
    · refine CallStep.refused _ _ _ (.error .permissionDenied) ?_
      simp only [start, checkUser, named, powerless_denied]
      rfl
    · exact CallStep.refused _ _ _ (.error .userNotFound) rfl
  · refine ⟨one n, empty, .permissionDenied, .userNotFound, ?_, ?_, rfl, by simp⟩
    · refine CallStep.refused _ _ _ (.error .permissionDenied) ?_
      simp only [start, checkUser, named, powerless_denied]
      rfl
    · exact CallStep.refused _ _ _ (.error .userNotFound) rfl
  · refine ⟨one n, empty, .permissionDenied, .invalidCredentials, ?_, ?_, rfl, by simp⟩
    · refine CallStep.atomic _ _ _ _ _ ?_
      show some (sessionAnswer (one n) (orSame (one n).st ((one n).st.authenticatePassword H powerless (.name n) p))) = _
      simp only [St.authenticatePassword, loaded, powerless_denied]
      rfl
    · exact CallStep.atomic _ _ _ _ _ rfl
  · refine ⟨one n, empty, .permissionDenied, .invalidCredentials, ?_, ?_, rfl, by simp⟩
    · refine CallStep.atomic _ _ _ _ _ ?_
      show some (sessionAnswer (one n) (orSame (one n).st ((one n).st.assumeIdentity powerless (.user (.name n))))) = _
      simp only [St.assumeIdentity, loaded, powerless_denied]
      rfl
    · exact CallStep.atomic _ _ _ _ _ rfl
  · let usr (l : Coll Group) : Srv Unit := ⟨⟨⟨[(k, ⟨0, ⟨"u", [], [], none⟩⟩)], [], l⟩, fun _ => none, [], [], 0⟩,
      ⟨[], fun _ => none, fun _ => none, fun _ => none, fun _ => false, fun _ => false⟩, []⟩
    have hu : ∀ l, Ref.load (.key k) User.username (usr l).st.adm.users =
        .ok (some (k, ⟨0, ⟨"u", [], [], none⟩⟩)) := by
      intro l
      simp [Ref.load, Ref.resolve, Coll.get, usr]
    refine ⟨usr [(7#64, ⟨0, ⟨g, []⟩⟩)], usr [], .permissionDenied, .userNotFound, ?_, ?_, rfl, by simp⟩
    · refine CallStep.refused _ _ _ (.error .permissionDenied) ?_
      have hg : op.resolveIn (usr [(7#64, ⟨0, ⟨g, []⟩⟩)]).st.adm (.name g) = .ok (some 7#64) := by
        rcases hop with rfl | rfl <;> simp [UserOp.resolveIn, Ref.resolve, Coll.named, usr]
      simp only [start, loadFor, hu, hg, powerless_denied]
      rfl
    · refine CallStep.refused _ _ _ (.error .userNotFound) ?_
      have hg : op.resolveIn (usr []).st.adm (.name g) = .ok none := by
        rcases hop with rfl | rfl <;> simp [UserOp.resolveIn, Ref.resolve, Coll.named, usr]
      simp only [start, loadFor, hu, hg]

/-- The administrator of user 1 only. -/
def callsAdmin1 : Handle :=
  ⟨none, some ⟨none, .none, [fun r a => (a = .setPassword ∨ a = .deleteUser) ∧ r = resourceName (.user 1#64)]⟩⟩

/-- A storage with these users and calls under way, and nothing else. -/
def callsSrv (users : Coll User) (fl : List (Handle × Flight)) : Srv Unit :=
  ⟨⟨⟨users, [], []⟩, fun _ => none, [], [], 0⟩,
    ⟨[], fun _ => none, fun _ => none, fun _ => none, fun _ => false, fun _ => false⟩, fl⟩

/-- Users 1 and 2, called bob. -/
def callsBob1 : Coll User := [(1#64, ⟨0, ⟨"bob", [], [], none⟩⟩)]
def callsBob2 : Coll User := [(2#64, ⟨0, ⟨"bob", [], [], none⟩⟩)]

/-- While a call `x` is under way somebody else deletes bob and another bob is created. -/
theorem callsReplaceBob (H : Hashes) (tr : List (Handle × Option (Call Unit))) (σ₀ : Srv Unit) (x : Handle × Flight)
    (run : CallRun H σ₀ tr (callsSrv callsBob1 [x])) :
    ∃ tr', CallRun H σ₀ tr' (callsSrv callsBob2 [x]) := by
  have s2 : CallStep H (callsSrv callsBob1 [x]) .local (some (.deleteUser (.name "bob"))) none
      (callsSrv callsBob1 [(.local, .deleteUser (.name "bob")), x]) :=
    CallStep.started (callsSrv callsBob1 [x]) .local (.deleteUser (.name "bob")) (.deleteUser (.name "bob")) (by rfl)
  have s3 : CallStep H (callsSrv callsBob1 [(.local, .deleteUser (.name "bob")), x]) .local none none
      (callsSrv callsBob1 [(.local, .deleteLoaded 1#64 ⟨0, ⟨"bob", [], [], none⟩⟩), x]) :=
    CallStep.goesOn (callsSrv callsBob1 [(.local, .deleteUser (.name "bob")), x])
      .local [] [x] (.deleteUser (.name "bob")) (.deleteLoaded 1#64 ⟨0, ⟨"bob", [], [], none⟩⟩) rfl (by rfl)
  have s4 : CallStep H (callsSrv callsBob1 [(.local, .deleteLoaded 1#64 ⟨0, ⟨"bob", [], [], none⟩⟩), x]) .local none
      (some (.ok .done)) (callsSrv [] [x]) :=
    CallStep.commits (callsSrv callsBob1 [(.local, .deleteLoaded 1#64 ⟨0, ⟨"bob", [], [], none⟩⟩), x])
      .local [] [x] (.deleteLoaded 1#64 ⟨0, ⟨"bob", [], [], none⟩⟩) ⟨[], [], []⟩ rfl (by rfl)
  have s5 : CallStep H (callsSrv [] [x]) .local (some (.createUser "bob" 2#64)) (some (.ok (.userId 2#64)))
      (callsSrv callsBob2 [x]) := CallStep.atomic _ _ _ _ _ (by rfl)
  exact ⟨_, .snoc (.snoc (.snoc (.snoc run s2) s3) s4) s5⟩

/-- **C68 violated**: `set_user_password` checks the permission for the user that has the name, then looks
the name up again (storage.rs:1306-1315, 1104). If meanwhile that user is deleted and another is created with
the name, the password of the other is set, for which the caller has no permission. -/
theorem C68_violated_password_race (H : Hashes) : ∃ (σ₀ σ σ' : Srv Unit) (tr : List (Handle × Option (Call Unit))),
    CallRun H σ₀ tr σ ∧ σ₀.flying = [] ∧
    CallStep H σ callsAdmin1 none (some (.ok .done)) σ' ∧
    callsAdmin1.allowed (.user 2#64) .setPassword = false ∧
    (σ.st.adm.users.get 2#64).map (·.contents.argonHash) = some none ∧
    (σ'.st.adm.users.get 2#64).map (·.contents.argonHash) = some (some [42]) := by
  let x : Handle × Flight := (callsAdmin1, .setPassword (.name "bob") fun _ => [42])
  have s1 : CallStep H (callsSrv callsBob1 []) callsAdmin1 (some (.setPassword (.name "bob") fun _ => [42])) none
      (callsSrv callsBob1 [x]) :=
    CallStep.started (callsSrv callsBob1 []) callsAdmin1 (.setPassword (.name "bob") fun _ => [42]) _ (by rfl)
  obtain ⟨tr, run⟩ := callsReplaceBob H _ _ x (.snoc (.nil _) s1)
  have s6 : CallStep H (callsSrv callsBob2 [x]) callsAdmin1 none none
      (callsSrv callsBob2 [(callsAdmin1, .passwordLoaded 2#64 ⟨0, ⟨"bob", [], [], none⟩⟩ fun _ => [42])]) :=
    CallStep.goesOn (callsSrv callsBob2 [x]) callsAdmin1 [] [] (.setPassword (.name "bob") fun _ => [42])
      (.passwordLoaded 2#64 ⟨0, ⟨"bob", [], [], none⟩⟩ fun _ => [42]) rfl (by rfl)
  have s7 : CallStep H
      (callsSrv callsBob2 [(callsAdmin1, .passwordLoaded 2#64 ⟨0, ⟨"bob", [], [], none⟩⟩ fun _ => [42])])
      callsAdmin1 none (some (.ok .done)) (callsSrv [(2#64, ⟨1, ⟨"bob", [], [], some [42]⟩⟩)] []) :=
    CallStep.commits (callsSrv callsBob2 [(callsAdmin1, .passwordLoaded 2#64 ⟨0, ⟨"bob", [], [], none⟩⟩ fun _ => [42])])
      callsAdmin1 [] [] (.passwordLoaded 2#64 ⟨0, ⟨"bob", [], [], none⟩⟩ fun _ => [42])
      ⟨[(2#64, ⟨1, ⟨"bob", [], [], some [42]⟩⟩)], [], []⟩ rfl (by rfl)
  exact ⟨_, _, _, _, .snoc run s6, rfl, s7, by decide +kernel, by decide +kernel, by decide +kernel⟩

/-- **C68 violated**: in the same way `delete_user` deletes a user the caller must not delete
(storage.rs:1288-1297, 1090). -/
theorem C68_violated_delete_race (H : Hashes) : ∃ (σ₀ σ σ' : Srv Unit) (tr : List (Handle × Option (Call Unit))),
    CallRun H σ₀ tr σ ∧ σ₀.flying = [] ∧
    CallStep H σ callsAdmin1 none (some (.ok .done)) σ' ∧
    callsAdmin1.allowed (.user 2#64) .deleteUser = false ∧
    (σ.st.adm.users.get 2#64).isSome ∧ σ'.st.adm.users.get 2#64 = none := by
  let x : Handle × Flight := (callsAdmin1, .deleteUser (.name "bob"))
  have s1 : CallStep H (callsSrv callsBob1 []) callsAdmin1 (some (.deleteUser (.name "bob"))) none
      (callsSrv callsBob1 [x]) :=
    CallStep.started (callsSrv callsBob1 []) callsAdmin1 (.deleteUser (.name "bob")) _ (by rfl)
  obtain ⟨tr, run⟩ := callsReplaceBob H _ _ x (.snoc (.nil _) s1)
  have s6 : CallStep H (callsSrv callsBob2 [x]) callsAdmin1 none none
      (callsSrv callsBob2 [(callsAdmin1, .deleteLoaded 2#64 ⟨0, ⟨"bob", [], [], none⟩⟩)]) :=
    CallStep.goesOn (callsSrv callsBob2 [x]) callsAdmin1 [] [] (.deleteUser (.name "bob"))
      (.deleteLoaded 2#64 ⟨0, ⟨"bob", [], [], none⟩⟩) rfl (by rfl)
  have s7 : CallStep H (callsSrv callsBob2 [(callsAdmin1, .deleteLoaded 2#64 ⟨0, ⟨"bob", [], [], none⟩⟩)])
      callsAdmin1 none (some (.ok .done)) (callsSrv [] []) :=
    CallStep.commits (callsSrv callsBob2 [(callsAdmin1, .deleteLoaded 2#64 ⟨0, ⟨"bob", [], [], none⟩⟩)])
      callsAdmin1 [] [] (.deleteLoaded 2#64 ⟨0, ⟨"bob", [], [], none⟩⟩) ⟨[], [], []⟩ rfl (by rfl)
  exact ⟨_, _, _, _, .snoc run s6, rfl, s7, by decide +kernel, by decide +kernel, rfl⟩

/-! ## The hypotheses are met -/

/-- A caller with permission deletes user 1 by its id, another adds a database meanwhile. -/
example (H : Hashes) : ∃ (σ : Srv Unit) (tr : List (Handle × Option (Call Unit))),
    CallRun H (callsSrv callsBob1 []) tr σ ∧ (callsSrv callsBob1 []).flying = [] ∧
    (∀ h x, (h, some x) ∈ tr → x.ById) ∧
    CallStep H σ callsAdmin1 none (some (.ok .done)) (callsSrv [] []) ∧
    callsAdmin1.allowed (.user 1#64) .deleteUser = true := by
  have s1 : CallStep H (callsSrv callsBob1 []) callsAdmin1 (some (.deleteUser (.key 1#64))) none
      (callsSrv callsBob1 [(callsAdmin1, .deleteUser (.key 1#64))]) :=
    CallStep.started (callsSrv callsBob1 []) callsAdmin1 (.deleteUser (.key 1#64)) _ (by rfl)
  have s2 : CallStep H (callsSrv callsBob1 [(callsAdmin1, .deleteUser (.key 1#64))]) callsAdmin1 none none
      (callsSrv callsBob1 [(callsAdmin1, .deleteLoaded 1#64 ⟨0, ⟨"bob", [], [], none⟩⟩)]) :=
    CallStep.goesOn (callsSrv callsBob1 [(callsAdmin1, .deleteUser (.key 1#64))]) callsAdmin1 [] []
      (.deleteUser (.key 1#64)) (.deleteLoaded 1#64 ⟨0, ⟨"bob", [], [], none⟩⟩) rfl (by rfl)
  have s3 : CallStep H (callsSrv callsBob1 [(callsAdmin1, .deleteLoaded 1#64 ⟨0, ⟨"bob", [], [], none⟩⟩)])
      callsAdmin1 none (some (.ok .done)) (callsSrv [] []) :=
    CallStep.commits (callsSrv callsBob1 [(callsAdmin1, .deleteLoaded 1#64 ⟨0, ⟨"bob", [], [], none⟩⟩)])
      callsAdmin1 [] [] (.deleteLoaded 1#64 ⟨0, ⟨"bob", [], [], none⟩⟩) ⟨[], [], []⟩ rfl (by rfl)
  refine ⟨_, _, .snoc (.snoc (.nil _) s1) s2, rfl, ?_, s3, by decide +kernel⟩
  simp [Call.ById]

/-- A denied call: bob exists, the caller may not delete him. -/
example (H : Hashes) : (∀ re a, Needed (callsSrv callsBob1 []).st.adm (.deleteUser (.name "bob") : Call Unit) re a →
      powerless.allowed re a = false) ∧
    CallStep H (callsSrv callsBob1 []) powerless (some (.deleteUser (.name "bob"))) (some (.error .permissionDenied))
      (callsSrv callsBob1 []) :=
  ⟨fun _ _ _ => rfl, CallStep.refused (callsSrv callsBob1 []) powerless _ (.error .permissionDenied) (by rfl)⟩

/-- An undisturbed call. -/
example : callAlone (callsSrv callsBob1 []).st.adm callsAdmin1 (.setPassword (.name "bob") fun _ => [42] : Call Unit) =
    some (.ok ⟨[(1#64, ⟨1, ⟨"bob", [], [], some [42]⟩⟩)], [], []⟩) := by rfl

/-- bob is denoted by his name. -/
example : Denotes User.username callsBob1 (.name "bob") 1#64 ∧
    callsBob1.get 1#64 = some ⟨0, ⟨"bob", [], [], none⟩⟩ ∧
    Needed (callsSrv callsBob1 []).st.adm (.deleteUser (.name "bob") : Call Unit) (.user 1#64) .deleteUser ∧
    callsAdmin1.allowed (.user 1#64) .deleteUser = true :=
  ⟨.inl ⟨"bob", rfl, by rfl⟩, by rfl, ⟨⟨1#64, .inl ⟨"bob", rfl, by rfl⟩, rfl⟩, rfl⟩, by decide +kernel⟩

end Bonsai.Ident
