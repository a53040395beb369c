import Verif.Identity.Tokens
import Verif.Identity.C48
/-!
# C101: a token is new, and its holder the identity it was made for

A token that is created has an id that no token had, replaces none, and lets its holder in as the identity that it was
created for, until it is deleted; nobody else.  Violated where a user is referred to by a key, or deleted: ids of users are
given again, and tokens stay.
-/
set_option linter.unusedSimpArgs false
set_option linter.unusedVariables false

namespace Bonsai.Ident
open Bonsai Bonsai.Names

/-! ## Specification -/

/-- Somebody who has the secret of a token, and a clock that is right, is let in as user `uid` called `name`. -/
def LetsInAs (H : Hashes) (st : St) (tid : Id) (secret : Bytes) (uid : Id) (name : String) : Prop :=
  ∀ (nonce : Bytes) (now now' : Nat),
    ∃ h₁ st₁ h₂ st₂, st.beginToken H .local tid now (H.requestTime now secret) now now' nonce = .ok (h₁, st₁) ∧
      st₁.finishToken H h₁ (H.response secret nonce now') = (.ok h₂, st₂) ∧
      ∃ s, h₂.effective = some s ∧ s.auth = .identity (.user uid name)

/-- BLAKE3 hashes have 32 bytes. -/
def Blake (H : Hashes) : Prop :=
  (∀ t s, (H.requestTime t s).length = 32) ∧ ∀ s n t, (H.response s n t).length = 32

/-- No operation of `ops`, each in its turn, deletes user `u`. -/
def KeepsUser (st : St) (u : Id) (ops : List TokenOp) : Prop :=
  ∀ before r after, ops = before ++ .deleteUser r :: after →
    r.resolve User.username (st.tokenOps before).adm.users ≠ .ok (some u)

/-! ## Proofs -/

theorem insertDraw_some {tokens : Id → Option Token} {i : IdentityId} : ∀ {l : List Draw} {id : Id} {t : Token},
    insertDraw tokens i l = some (id, t) → tokens id = none ∧ t.identity = i ∧ ∃ d, d ∈ l ∧ d.id = id ∧ t.token = d.secret
  | d :: l, id, t, h => by
    simp only [insertDraw] at h
    split at h
    · obtain ⟨h1, h2, d', h3, h4⟩ := insertDraw_some h
      exact ⟨h1, h2, d', List.mem_cons_of_mem _ h3, h4⟩
    · rename_i g
      simp only [Option.some.injEq, Prod.mk.injEq] at h
      obtain ⟨rfl, rfl⟩ := h
      exact ⟨by simpa using g, rfl, d, by simp, rfl, rfl⟩

theorem insertDraw_none (tokens : Id → Option Token) (i : IdentityId) : ∀ (l : List Draw),
    insertDraw tokens i l = none ↔ ∀ d, d ∈ l → tokens d.id ≠ none
  | [] => by simp [insertDraw]
  | d :: l => by
    simp only [insertDraw, List.mem_cons, forall_eq_or_imp]
    cases e : tokens d.id with
    | none => simp
    | some t => simp [insertDraw_none tokens i l]

theorem le_last {α : Type} {c : Coll α} {id : Id} {d : Doc α} (h : c.get id = some d) : id.toNat ≤ c.last := by
  induction c with
  | nil => cases h
  | cons p c ih =>
    have hl : Coll.last (p :: c) = max p.1.toNat (Coll.last c) := rfl
    rw [hl]
    by_cases g : p.1 = id
    · rw [g]; omega
    · have : Coll.get c id = some d := by simpa [Coll.get, g] using h
      have := ih this
      omega

theorem createUser_ok {st st' : St} {name : String} {id : Id} (h : st.createUser name = .ok (id, st')) :
    id.toNat = st.adm.users.last + 1 ∧ st.adm.users.get id = none ∧
      st'.adm.users.get id = some ⟨0, name, [], [], none⟩ ∧ (∀ x, x ≠ id → st'.adm.users.get x = st.adm.users.get x) ∧
      st'.tokens = st.tokens := by
  simp only [St.createUser] at h
  split at h
  · cases h
  · split at h
    · rename_i hlt
      simp only [Except.ok.injEq, Prod.mk.injEq] at h
      obtain ⟨rfl, rfl⟩ := h
      have hn : (BitVec.ofNat 64 (st.adm.users.last + 1)).toNat = st.adm.users.last + 1 := by
        rw [BitVec.toNat_ofNat]; exact Nat.mod_eq_of_lt hlt
      refine ⟨hn, ?_, by simp [Coll.get], fun x hx => by simp [Coll.get, Ne.symm hx], rfl⟩
      cases e : st.adm.users.get (BitVec.ofNat 64 (st.adm.users.last + 1)) with
      | none => rfl
      | some d =>
        have := le_last e
        rw [hn] at this
        omega
    · cases h

theorem get_put {α : Type} (c : Coll α) (id x : Id) (d : Doc α) :
    (c.put id d).get x = if x = id then (c.get x).map fun _ => d else c.get x := by
  induction c with
  | nil => simp [Coll.put, Coll.get]
  | cons p c ih =>
    obtain ⟨a, b⟩ := p
    simp only [Coll.put, Coll.get] at ih
    by_cases h1 : a = id <;> by_cases h2 : a = x <;> by_cases h3 : x = id <;>
      simp_all [Coll.put, Coll.get]

theorem get_del {α : Type} (c : Coll α) {id x : Id} (h : x ≠ id) : (c.del id).get x = c.get x := by
  induction c with
  | nil => rfl
  | cons p c ih =>
    obtain ⟨a, b⟩ := p
    simp only [Coll.del, Coll.get] at ih
    by_cases h1 : a = id
    · have : a ≠ x := by rintro rfl; exact h h1
      simp_all [Coll.del, Coll.get]
    · by_cases h2 : a = x <;> simp_all [Coll.del, Coll.get]

/-- What one operation does to a token. -/
theorem tokenOp_tokens {st : St} {id : Id} {t : Token} (ht : st.tokens id = some t) (op : TokenOp)
    (h : op ≠ .deleteToken id) : (st.tokenOp op).tokens id = some t := by
  cases op with
  | deleteToken x =>
    have : id ≠ x := by rintro rfl; exact h rfl
    simpa [St.tokenOp, this] using ht
  | updateUser x d => exact ht
  | deleteUser r =>
    simp only [St.tokenOp, St.deleteUser]
    cases r.load User.username st.adm.users with
    | error e => exact ht
    | ok o => cases o with
      | none => exact ht
      | some p => exact ht
  | createUser n =>
    simp only [St.tokenOp]
    cases e : st.createUser n with
    | error e => exact ht
    | ok p => obtain ⟨i, st'⟩ := p; rw [← ht]; exact congrFun (createUser_ok e).2.2.2.2 id
  | createToken i l =>
    simp only [St.tokenOp, St.createToken]
    cases i.resolve st.adm with
    | error e => exact ht
    | ok o => cases o with
      | none => exact ht
      | some identity =>
        simp only []
        cases e : insertDraw st.tokens identity l with
        | none => exact ht
        | some p =>
          obtain ⟨x, u⟩ := p
          have : id ≠ x := by
            rintro rfl
            rw [(insertDraw_some e).1] at ht
            cases ht
          simpa [this] using ht

/-- What one operation does to a user. -/
theorem tokenOp_user {st : St} {u : Id} {d : Doc User} (hu : st.adm.users.get u = some d) (op : TokenOp)
    (h : ∀ r, op = .deleteUser r → r.resolve User.username st.adm.users ≠ .ok (some u)) :
    ∃ d', (st.tokenOp op).adm.users.get u = some d' ∧ ((∀ x, op ≠ .updateUser u x) → d' = d) := by
  cases op with
  | deleteToken x => exact ⟨d, hu, fun _ => rfl⟩
  | updateUser x e =>
    by_cases g : u = x
    · subst g
      refine ⟨e, ?_, fun k => absurd rfl (k e)⟩
      simp only [St.tokenOp, get_put, hu]; simp
    · refine ⟨d, ?_, fun _ => rfl⟩
      simp only [St.tokenOp, get_put, g, if_false, hu]
  | deleteUser r =>
    refine ⟨d, ?_, fun _ => rfl⟩
    have hr := h r rfl
    simp only [St.tokenOp, St.deleteUser, Ref.load]
    cases e : r.resolve User.username st.adm.users with
    | error _ => exact hu
    | ok o =>
      cases o with
      | none => exact hu
      | some k =>
        simp only []
        cases g : st.adm.users.get k with
        | none => exact hu
        | some d' =>
          have : u ≠ k := by rintro rfl; exact hr e
          simp only [Option.map_some]
          rw [get_del _ this]
          exact hu
  | createUser n =>
    refine ⟨d, ?_, fun _ => rfl⟩
    simp only [St.tokenOp]
    cases e : st.createUser n with
    | error e => exact hu
    | ok p =>
      obtain ⟨i, st'⟩ := p
      have hc := createUser_ok e
      have : u ≠ i := by
        rintro rfl
        rw [hc.2.1] at hu
        cases hu
      show st'.adm.users.get u = some d
      rw [hc.2.2.2.1 u this, hu]
  | createToken i l =>
    refine ⟨d, ?_, fun _ => rfl⟩
    simp only [St.tokenOp, St.createToken]
    cases i.resolve st.adm with
    | error e => exact hu
    | ok o => cases o with
      | none => exact hu
      | some identity =>
        simp only []
        cases insertDraw st.tokens identity l <;> exact hu

theorem letsIn {H : Hashes} (hB : Blake H) {st : St} {tid uid : Id} {t : Token} {d : Doc User}
    (ht : st.tokens tid = some t) (hi : t.identity = .user uid) (hu : st.adm.users.get uid = some d) :
    LetsInAs H st tid t.token uid d.contents.username := by
  intro nonce now now'
  obtain ⟨h₁, st₁, h₂, st₂, e1, e2, s, e3, e4, _⟩ := C59_token_holder_succeeds H st tid t nonce now now now' uid d (hB.1 _ _)
    (hB.2 _ _ _) ⟨by omega, by omega⟩ ht hi hu
  exact ⟨h₁, st₁, h₂, st₂, e1, e2, s, e3, e4⟩

/-! ## Tokens are new -/

/-- A token that is created has an id that no token had, the identity that was asked for and a secret that was drawn; all
else stays. -/
theorem C101_create (st st' : St) (i : IdentityRef) (draws : List Draw) (id : Id) (t : Token)
    (h : st.createToken i draws = .ok (some (id, t), st')) :
    st.tokens id = none ∧ st'.tokens id = some t ∧ (∀ x, x ≠ id → st'.tokens x = st.tokens x) ∧
      i.resolve st.adm = .ok (some t.identity) ∧ (∃ d, d ∈ draws ∧ d.id = id ∧ t.token = d.secret) ∧
      st'.adm = st.adm ∧ st'.sessions = st.sessions := by
  simp only [St.createToken] at h
  split at h
  · cases h
  · cases h
  · rename_i identity hr
    split at h
    · cases h
    · rename_i x u he
      simp only [Except.ok.injEq, Prod.mk.injEq, Option.some.injEq] at h
      obtain ⟨⟨rfl, rfl⟩, rfl⟩ := h
      obtain ⟨h1, h2, h3⟩ := insertDraw_some he
      exact ⟨h1, by simp, fun y hy => by simp [hy], by rw [h2]; exact hr, h3, rfl, rfl⟩

/-- It is created exactly if the reference denotes an identity and a draw finds an id that is free; a name that nobody has is
an error. -/
theorem C101_when (st : St) (i : IdentityRef) (draws : List Draw) :
    ((∃ id t st', st.createToken i draws = .ok (some (id, t), st')) ↔
      (∃ identity, i.resolve st.adm = .ok (some identity)) ∧ ∃ d, d ∈ draws ∧ st.tokens d.id = none) ∧
    ∀ n, i = .user (.name n) → st.adm.users.named User.username n = none →
      st.createToken i draws = .error .invalidCredentials := by
  refine ⟨?_, by
    rintro n rfl hn
    simp [St.createToken, IdentityRef.resolve, Ref.resolve, Except.map, hn]⟩
  simp only [St.createToken]
  cases hr : i.resolve st.adm with
  | error e => simp
  | ok o =>
    cases o with
    | none => simp
    | some identity =>
      have hn := insertDraw_none st.tokens identity draws
      cases he : insertDraw st.tokens identity draws with
      | none =>
        simp only [he, true_iff] at hn
        constructor
        · rintro ⟨id, t, st', h⟩
          simp only [he] at h
          cases h
        · rintro ⟨_, d, hd, hd'⟩
          exact absurd hd' (hn d hd)
      | some p =>
        obtain ⟨x, u⟩ := p
        obtain ⟨h1, _, d, h3, h4, _⟩ := insertDraw_some he
        exact ⟨fun _ => ⟨⟨identity, rfl⟩, d, h3, by rw [h4]; exact h1⟩, fun _ => ⟨x, u, _, by simp only [he]; rfl⟩⟩

/-- A secret is 32 characters of the alphabet, all choices of which are different secrets. -/
theorem C101_secret (d e : Draw) : d.secret.length = 32 ∧
    (∀ b, b ∈ d.secret → ∃ c, c ∈ alphabet ∧ b = UInt8.ofNat c.toNat) ∧
    (d.secret = e.secret → d.choices = e.choices) := by
  have hinj : ∀ i j : Fin alphabet.length, UInt8.ofNat (alphabet[i]).toNat = UInt8.ofNat (alphabet[j]).toNat → i = j := by
    decide +kernel
  refine ⟨by simp [Draw.secret], ?_, ?_⟩
  · intro b hb
    simp only [Draw.secret, List.mem_ofFn] at hb
    obtain ⟨i, rfl⟩ := hb
    exact ⟨_, List.getElem_mem _, rfl⟩
  · intro h
    funext i
    apply hinj
    have hl : ∀ (f g : Fin 32 → UInt8), List.ofFn f = List.ofFn g → f i = g i := by
      intro f g e
      have e1 : (List.ofFn f)[i.val]? = (List.ofFn g)[i.val]? := by rw [e]
      rw [List.getElem?_ofFn, List.getElem?_ofFn] at e1
      simpa using e1
    exact hl _ _ h

/-! ## Tokens stay and let in -/

/-- A token stays as it is, whatever happens, until it is deleted. -/
theorem C101_kept (st : St) (id : Id) (t : Token) (ht : st.tokens id = some t) (ops : List TokenOp)
    (h : TokenOp.deleteToken id ∉ ops) : (st.tokenOps ops).tokens id = some t := by
  induction ops generalizing st with
  | nil => exact ht
  | cons op ops ih =>
    exact ih _ (tokenOp_tokens ht op fun g => h (by simp [g])) fun g => h (List.mem_cons_of_mem _ g)

/-- A token that is deleted lets nobody in. -/
theorem C101_deleted (H : Hashes) (st : St) (id : Id) (h : Handle) (time now now' : Nat) (hash nonce : Bytes) :
    ∃ e, (st.tokenOp (.deleteToken id)).beginToken H h id time hash now now' nonce = .error e := by
  simp only [St.tokenOp, St.beginToken, if_true]
  split
  · split
    · exact ⟨_, rfl⟩
    · exact ⟨_, rfl⟩
  · exact ⟨_, rfl⟩

theorem tokenOps_user {u : Id} : ∀ (ops : List TokenOp) (st : St) (d : Doc User), st.adm.users.get u = some d →
    KeepsUser st u ops → ∃ d', (st.tokenOps ops).adm.users.get u = some d' ∧
      ((∀ x, TokenOp.updateUser u x ∉ ops) → d' = d)
  | [], _, d, hu, _ => ⟨d, hu, fun _ => rfl⟩
  | op :: ops, st, d, hu, hk => by
    obtain ⟨d1, h1, h2⟩ := tokenOp_user hu op (by
      rintro r rfl
      exact hk [] r ops rfl)
    obtain ⟨d2, h3, h4⟩ := tokenOps_user ops (st.tokenOp op) d1 h1 (by
      intro a r b e
      exact hk (op :: a) r b (by rw [e]; rfl))
    refine ⟨d2, h3, fun g => ?_⟩
    rw [h4 fun x hx => g x (List.mem_cons_of_mem _ hx), h2 fun x hx => g x (by simp [hx])]

/-- Whoever has a token that was created for a user is let in as this user, whatever happened since, as long as neither the
token nor the user was deleted; the user's name is the one it has, which only an update of this user changes.  Missing:
without the user, `C101_violated_key` and `C101_violated_reissue`. -/
theorem C101_user_partial (H : Hashes) (hB : Blake H) (st st' : St) (i : IdentityRef) (draws : List Draw) (tid uid : Id)
    (t : Token) (d : Doc User) (h : st.createToken i draws = .ok (some (tid, t), st'))
    (hi : i.resolve st.adm = .ok (some (.user uid))) (hu : st.adm.users.get uid = some d) (ops : List TokenOp)
    (hk : KeepsUser st' uid ops) (hd : TokenOp.deleteToken tid ∉ ops) :
    ∃ d', (st'.tokenOps ops).adm.users.get uid = some d' ∧ ((∀ x, TokenOp.updateUser uid x ∉ ops) → d' = d) ∧
      LetsInAs H (st'.tokenOps ops) tid t.token uid d'.contents.username := by
  obtain ⟨_, h2, _, h4, _, h6, _⟩ := C101_create st st' i draws tid t h
  have hti : t.identity = .user uid := by
    rw [hi] at h4
    simpa using h4.symm
  obtain ⟨d', h7, h8⟩ := tokenOps_user ops st' d (by rw [h6]; exact hu) hk
  exact ⟨d', h7, h8, letsIn hB (C101_kept st' tid t h2 ops hd) hti h7⟩

/-- A new user gets an id that no user has. -/
theorem C101_user_new (st st' : St) (name : String) (id : Id) (h : st.createUser name = .ok (id, st')) :
    st.adm.users.get id = none ∧ ∃ d, st'.adm.users.get id = some d ∧ d.contents.username = name :=
  ⟨(createUser_ok h).2.1, _, (createUser_ok h).2.2.1, rfl⟩

/-! ## What is violated -/

/-- A token is given for the key of a user that does not exist; who is created then is whom it lets in as. -/
theorem C101_violated_key (H : Hashes) (hB : Blake H) (st : St) (d : Draw) (hd : st.tokens d.id = none) (name : String)
    (k : Id) (hk : k.toNat = st.adm.users.last + 1) (hn : st.adm.users.named User.username name = none) :
    st.adm.users.get k = none ∧ ∃ t st₁ st₂, st.createToken (.user (.key k)) [d] = .ok (some (d.id, t), st₁) ∧
      st₁.createUser name = .ok (k, st₂) ∧ LetsInAs H st₂ d.id t.token k name := by
  have hlt : st.adm.users.last + 1 < 2 ^ 64 := by rw [← hk]; exact k.isLt
  have hkk : BitVec.ofNat 64 (st.adm.users.last + 1) = k := by
    apply BitVec.eq_of_toNat_eq
    rw [BitVec.toNat_ofNat, Nat.mod_eq_of_lt hlt, hk]
  have hc : st.createToken (.user (.key k)) [d] = .ok (some (d.id, ⟨.user k, d.secret⟩),
      { st with tokens := fun x => if x = d.id then some ⟨.user k, d.secret⟩ else st.tokens x }) := by
    simp [St.createToken, IdentityRef.resolve, Ref.resolve, Except.map, insertDraw, hd]
  have hu : St.createUser { st with tokens := fun x => if x = d.id then some ⟨.user k, d.secret⟩ else st.tokens x } name =
      .ok (k, { st with
        tokens := fun x => if x = d.id then some ⟨.user k, d.secret⟩ else st.tokens x
        adm := { st.adm with users := (k, ⟨0, name, [], [], none⟩) :: st.adm.users } }) := by
    simp only [St.createUser, hn, Option.isSome_none, Bool.false_eq_true, if_false, hlt, if_true, hkk]
  refine ⟨?_, _, _, _, hc, hu, ?_⟩
  · cases e : st.adm.users.get k with
    | none => rfl
    | some x => have := le_last e; omega
  · exact letsIn (d := ⟨0, name, [], [], none⟩) hB (by simp) rfl (by simp [Coll.get])

/-- The token of a user that was deleted lets in as another: the user that is created next, if the deleted one was the last
and the id before its own is there. -/
theorem C101_violated_reissue (H : Hashes) (hB : Blake H) (st : St) (tid u : Id) (t : Token) (d : Doc User)
    (ht : st.tokens tid = some t) (hi : t.identity = .user u) (hu : st.adm.users.get u = some d)
    (hlast : u.toNat = (st.adm.users.del u).last + 1) (other : String)
    (hn : (st.adm.users.del u).named User.username other = none) :
    ∃ st₁ st₂, st.deleteUser (.key u) = .ok st₁ ∧ st₁.createUser other = .ok (u, st₂) ∧
      LetsInAs H st₂ tid t.token u other := by
  have hlt : (st.adm.users.del u).last + 1 < 2 ^ 64 := by rw [← hlast]; exact u.isLt
  have hkk : BitVec.ofNat 64 ((st.adm.users.del u).last + 1) = u := by
    apply BitVec.eq_of_toNat_eq
    rw [BitVec.toNat_ofNat, Nat.mod_eq_of_lt hlt, hlast]
  have hc : st.deleteUser (.key u) = .ok { st with adm := { st.adm with users := st.adm.users.del u } } := by
    simp [St.deleteUser, Ref.load, Ref.resolve, hu]
  have hv : St.createUser { st with adm := { st.adm with users := st.adm.users.del u } } other =
      .ok (u, { st with adm := { st.adm with users := (u, ⟨0, other, [], [], none⟩) :: st.adm.users.del u } }) := by
    simp only [St.createUser, hn, Option.isSome_none, Bool.false_eq_true, if_false, hlt, if_true, hkk]
  refine ⟨_, _, hc, hv, ?_⟩
  · exact letsIn (d := ⟨0, other, [], [], none⟩) hB ht hi (by simp [Coll.get])

/-! ## Examples -/

def tokEmpty : St := ⟨⟨[], [], []⟩, fun _ => none, [], [], 0⟩

def tokDraw : Draw := ⟨7, fun _ => ⟨0, by decide⟩⟩

/-- Users ann and bob, and a token for bob, by name. -/
def tokBob : St := tokEmpty.tokenOps [.createUser "ann", .createUser "bob", .createToken (.user (.name "bob")) [tokDraw]]

example : tokBob.tokens 7 = some ⟨.user 2, tokDraw.secret⟩ ∧ (∃ d, tokBob.adm.users.get 2 = some d) ∧
    (2 : Id).toNat = (tokBob.adm.users.del 2).last + 1 ∧ (tokBob.adm.users.del 2).named User.username "eve" = none := by
  exact ⟨rfl, ⟨_, rfl⟩, rfl, rfl⟩

example : ∃ id t st', (tokEmpty.tokenOps [.createUser "ann"]).createToken (.user (.name "ann")) [tokDraw] =
    .ok (some (id, t), st') := ⟨_, _, _, rfl⟩

/-- A second token with the same id is drawn again. -/
example : ∃ t st', tokBob.createToken (.user (.name "ann")) [tokDraw, { tokDraw with id := 8 }] =
    .ok (some (8, t), st') ∧ t.identity = .user 1 := ⟨_, _, rfl, rfl⟩

end Bonsai.Ident
