import Verif.Typed.Core

/-!
# Lemmas for C71: writes
-/
set_option linter.unusedSimpArgs false
set_option linter.unusedVariables false

namespace Bonsai.Typed
open Bonsai Bonsai.Names Bonsai.Query Bonsai.Store

variable {s : Schema} {C : Coll} {first : Option C.key.T} {next : C.key.T → Option C.key.T}
variable {a a' : AbsStore} {S : Bytes → Prop}

/-- An insert under the id of a key. -/
theorem insert_spec (hl : Lawful s C first next) (ht : WellTyped C a) {k id x b nid}
    (hid : documentId C.key k = .ok id) (hx : C.serialize x = some b) {oid : Option Bytes}
    (ho : (oid.orElse fun _ => nid) = some id) :
    match specOp s.digest a nid ⟨C.name, .insert oid b⟩ with
    | .ok (a', .updated _ h) => h.id = id ∧ WellTyped C a' ∧
        InsertSpec s.digest C (mapOf C a) k x (.ok ⟨⟨k, h.revision⟩, x⟩) (mapOf C a')
    | .ok _ => False
    | .error e => InsertSpec s.digest C (mapOf C a) k x (.error (.db e)) (mapOf C a) := by
  simp only [specOp, ho]
  cases hd : a C.name id with
  | none =>
    simp only [headerOf]
    exact ⟨trivial, wellTyped_put ht hid hx,
      .ok ((mapOf_none hl ht hid).mpr hd) ⟨rfl, rfl, b, hx, rfl⟩ (changed_put hl hid hx)⟩
  | some d =>
    obtain ⟨n, b'⟩ := d
    obtain ⟨j, y, hj, hy⟩ := ht id n b' hd
    have := documentId_inj hl.key hj hid
    subst this
    exact .conflict ((mapOf_some hl ht hid).mpr ⟨b', hd, hy⟩) (documentId_ok.mp hid).1 ⟨b', hy, rfl⟩

theorem before_trans {K : KeyTy} {u v : K.T} (h : Before K u v) (h' : Before K v u) : False := by
  obtain ⟨x, y, h1, h2, h3⟩ := h
  obtain ⟨y', x', h4, h5, h6⟩ := h'
  rw [h1] at h5; rw [h2] at h4
  cases h5; cases h4
  exact bytes_lt_irrefl _ (bytes_lt_trans h3 h6)

/-- The largest id belongs to the largest key. -/
theorem largest_key (hl : Lawful s C first next) (ht : WellTyped C a) {l}
    (h : IsLargest a C.name (some l)) :
    ∃ v, documentId C.key v = .ok l ∧ mapOf C a v ≠ none ∧
      ∀ j, mapOf C a j ≠ none → j = v ∨ Before C.key j v := by
  obtain ⟨h1, h2⟩ := h
  cases hd : a C.name l with
  | none => exact absurd hd h1
  | some d =>
    obtain ⟨n, b⟩ := d
    obtain ⟨v, x, hv, hx⟩ := ht l n b hd
    refine ⟨v, hv, ?_, ?_⟩
    · rw [(mapOf_some hl ht hv).mpr ⟨b, hd, hx⟩]; simp
    · intro j hj
      cases hdj : documentId C.key j with
      | error e => exact absurd (mapOf_bad hdj) hj
      | ok i =>
        have hi : a C.name i ≠ none := fun hn => hj ((mapOf_none hl ht hdj).mpr hn)
        rcases h2 i hi with rfl | hlt
        · exact .inl (documentId_inj hl.key hdj hv)
        · exact .inr ⟨i, l, (documentId_ok.mp hdj).1, (documentId_ok.mp hv).1, hlt⟩

/-- The automatic id. -/
theorem nextId_spec (hl : Lawful s C first next) (ht : WellTyped C a) {last}
    (h : IsLargest a C.name last) :
    match s.nextId C.name last with
    | some id => ∃ k, documentId C.key k = .ok id ∧ AutoKey first next (mapOf C a) k
    | none => ∀ k, AutoKey first next (mapOf C a) k → ∃ e, BadKey C.key k e := by
  have fin : ∀ (w : Option C.key.T), (∀ k, AutoKey first next (mapOf C a) k ↔ w = some k) →
      match w.bind (fun v => (C.key.enc v).bind fun b => if b.length ≤ 65535 then some b else none) with
      | some id => ∃ k, documentId C.key k = .ok id ∧ AutoKey first next (mapOf C a) k
      | none => ∀ k, AutoKey first next (mapOf C a) k → ∃ e, BadKey C.key k e := by
    intro w hw
    cases w with
    | none =>
      simp only [Option.bind_none]
      intro k hk
      exact absurd ((hw k).mp hk) (by simp)
    | some v =>
      simp only [Option.bind_some]
      cases he : C.key.enc v with
      | none =>
        simp only [Option.bind_none]
        intro k hk
        have := (hw k).mp hk
        cases this
        exact ⟨_, .noEncoding he⟩
      | some b =>
        simp only [Option.bind_some]
        by_cases hlen : b.length ≤ 65535
        · simp only [hlen, if_true]
          exact ⟨v, documentId_ok.mpr ⟨he, hlen⟩, (hw v).mpr rfl⟩
        · simp only [hlen, if_false]
          intro k hk
          have := (hw k).mp hk
          cases this
          exact ⟨_, .tooLong he (by omega)⟩
  rw [hl.nextId]
  cases last with
  | none =>
    have hm : ∀ j, mapOf C a j = none := by
      intro j
      cases hd : documentId C.key j with
      | error e => exact mapOf_bad hd
      | ok i => exact (mapOf_none hl ht hd).mpr (h i)
    have := fin (first.bind next) (by
      intro k
      constructor
      · rintro (⟨-, f, hf, hn⟩ | ⟨l, hne, -⟩)
        · simp [hf, hn]
        · exact absurd (hm l) hne
      · intro hk
        cases hf : first with
        | none => rw [hf] at hk; simp at hk
        | some f => rw [hf] at hk; exact .inl ⟨hm, f, rfl, hk⟩)
    simpa [keyNextId] using this
  | some l =>
    obtain ⟨v, hv, hne, hall⟩ := largest_key hl ht h
    have hdec : C.key.dec l = .ok v := by
      have := decodeId_of hl.key hv
      unfold decodeId at this
      cases hd : C.key.dec l with
      | ok u => rw [hd] at this; cases this; rfl
      | err => rw [hd] at this; cases this
      | panic => rw [hd] at this; cases this
    have := fin (next v) (by
      intro k
      constructor
      · rintro (⟨hm, -⟩ | ⟨l', hne', hall', hn⟩)
        · exact absurd (hm v) hne
        · rcases hall l' hne' with rfl | h1
          · exact hn
          · rcases hall' v hne with rfl | h2
            · exact hn
            · exact (before_trans h1 h2).elim
      · intro hk; exact .inr ⟨v, hne, hall, hk⟩)
    simpa [keyNextId, hdec] using this

theorem specOp_push_none (hl : Lawful s C first next) {b} :
    specOp s.digest a none ⟨C.name, .insert none b⟩ = .error .push := rfl

/-- The operation a push makes. -/
theorem push_spec (hl : Lawful s C first next) (ht : WellTyped C a) {x op last}
    (ho : pushOp C x = .ok op) (hla : IsLargest a C.name last) :
    op.collection = C.name ∧ (∀ c, op.command.contents = some c → C.serialize x = some c) ∧
    match specOp s.digest a (s.nextId C.name last) op with
    | .ok (a', .updated _ h) => ∃ k, documentId C.key k = .ok h.id ∧ WellTyped C a' ∧
        PushSpec s.digest C first next (mapOf C a) x (.ok ⟨⟨k, h.revision⟩, x⟩) (mapOf C a')
    | .ok _ => False
    | .error e => PushSpec s.digest C first next (mapOf C a) x (.error (.db e)) (mapOf C a) := by
  unfold pushOp at ho
  cases hn : C.naturalId x with
  | none =>
    rw [hn] at ho
    simp only at ho
    cases hx : ser C x with
    | error e => rw [hx] at ho; cases ho
    | ok b =>
      rw [hx] at ho
      cases ho
      have hx' := ser_ok.mp hx
      refine ⟨rfl, fun c hc => ?_, ?_⟩
      · simp [Command.contents] at hc; rw [← hc]; exact hx'
      have hnext := nextId_spec hl ht hla
      cases hid : s.nextId C.name last with
      | none =>
        rw [hid] at hnext
        simp only at hnext
        rw [specOp_push_none hl]
        exact .noKey hn hnext
      | some id =>
        rw [hid] at hnext
        obtain ⟨k, hk, hauto⟩ := hnext
        have := insert_spec (s := s) (nid := some id) (oid := none) hl ht hk hx' rfl
        revert this
        cases specOp s.digest a (some id) ⟨C.name, .insert none b⟩ with
        | error e => exact fun h => .auto hn hauto h
        | ok p =>
          obtain ⟨a', r⟩ := p
          cases r with
          | updated c h =>
            rintro ⟨h1, h2, h3⟩
            exact ⟨k, by rw [h1]; exact hk, h2, .auto hn hauto h3⟩
          | _ => exact fun h => h
  | some k =>
    rw [hn] at ho
    simp only at ho
    cases hk : documentId C.key k with
    | error e => rw [hk] at ho; cases ho
    | ok id =>
      rw [hk] at ho
      simp only at ho
      cases hx : ser C x with
      | error e => rw [hx] at ho; cases ho
      | ok b =>
        rw [hx] at ho
        cases ho
        have hx' := ser_ok.mp hx
        refine ⟨rfl, fun c hc => ?_, ?_⟩
        · simp [Command.contents] at hc; rw [← hc]; exact hx'
        have := insert_spec (s := s) (nid := s.nextId C.name last) (oid := some id) hl ht hk hx' rfl
        revert this
        cases specOp s.digest a (s.nextId C.name last) ⟨C.name, .insert (some id) b⟩ with
        | error e => exact fun h => .natural hn h
        | ok p =>
          obtain ⟨a', r⟩ := p
          cases r with
          | updated c h =>
            rintro ⟨h1, h2, h3⟩
            exact ⟨k, by rw [h1]; exact hk, h2, .natural hn h3⟩
          | _ => exact fun h => h

theorem pushOp_collection {C : Coll} {x : C.Contents} {op : Operation} (h : pushOp C x = .ok op) :
    op.collection = C.name := by
  unfold pushOp at h
  cases hn : C.naturalId x with
  | none =>
    rw [hn] at h
    simp only at h
    cases hx : ser C x with
    | error e => rw [hx] at h; cases h
    | ok b => rw [hx] at h; cases h; rfl
  | some k =>
    rw [hn] at h
    simp only at h
    cases hk : documentId C.key k with
    | error e => rw [hk] at h; cases h
    | ok id =>
      rw [hk] at h
      simp only at h
      cases hx : ser C x with
      | error e => rw [hx] at h; cases h
      | ok b => rw [hx] at h; cases h; rfl

/-- The result loop of `push_all` pairs every document with its own header. -/
theorem pushAll_ok (hl : Lawful s C first next) (dflt : CHeader C.key) :
    ∀ {xs : List C.Contents} {ops : List Operation} {a p}, WellTyped C a →
      collect (pushOp C) xs = .ok ops → SpecRun s a ops (.ok p) →
      ∃ ds, pairUp C dflt p.2 xs = .ok ds ∧ WellTyped C p.1 ∧
        PushAllSpec s.digest C first next (mapOf C a) xs (.ok ds) (mapOf C p.1) := by
  intro xs
  induction xs with
  | nil =>
    intro ops a p ht hc hr
    cases hc
    generalize hq : Except.ok p = q at hr
    cases hr
    cases hq
    exact ⟨[], rfl, ht, .nil _⟩
  | cons x xs ih =>
    intro ops a p ht hc hr
    simp only [collect] at hc
    cases ho : pushOp C x with
    | error e => rw [ho] at hc; cases hc
    | ok op =>
      rw [ho] at hc
      simp only at hc
      cases hcs : collect (pushOp C) xs with
      | error e => rw [hcs] at hc; cases hc
      | ok ops' =>
        rw [hcs] at hc
        cases hc
        generalize hq : Except.ok p = q at hr
        cases hr with
        | fail _ _ => cases hq
        | next_fail _ _ _ => cases hq
        | next_ok hla hop hrest =>
          cases hq
          rename_i a1 r last a2 rs
          have hcol := pushOp_collection ho
          rw [hcol] at hla hop
          have := (push_spec hl ht ho hla).2.2
          rw [hop] at this
          cases r with
          | updated c h =>
            obtain ⟨k, hk, ht1, hps⟩ := this
            obtain ⟨ds, hds, ht2, hall⟩ := ih ht1 hcs hrest
            refine ⟨_, ?_, ht2, .cons hps hall⟩
            simp only [pairUp]
            have hof : CHeader.ofHeader C.key h = .ok ⟨k, h.revision⟩ := by
              obtain ⟨hi, hrv⟩ := h
              exact ofHeader_of hl hk
            rw [hof]
            simp only at hds
            simp only [hds]
          | _ => exact this.elim

theorem pushAll_err (hl : Lawful s C first next) :
    ∀ {xs : List C.Contents} {ops : List Operation} {a e}, WellTyped C a →
      collect (pushOp C) xs = .ok ops → SpecRun s a ops (.error e) →
      ∃ m', PushAllSpec s.digest C first next (mapOf C a) xs (.error (.db e)) m' := by
  intro xs
  induction xs with
  | nil =>
    intro ops a e ht hc hr
    cases hc
    nomatch hr
  | cons x xs ih =>
    intro ops a e ht hc hr
    simp only [collect] at hc
    cases ho : pushOp C x with
    | error e => rw [ho] at hc; cases hc
    | ok op =>
      rw [ho] at hc
      simp only at hc
      cases hcs : collect (pushOp C) xs with
      | error e => rw [hcs] at hc; cases hc
      | ok ops' =>
        rw [hcs] at hc
        cases hc
        have hcol := pushOp_collection ho
        generalize hq : Except.error e = q at hr
        cases hr with
        | fail hla hop =>
          cases hq
          rw [hcol] at hla hop
          have := (push_spec hl ht ho hla).2.2
          rw [hop] at this
          exact ⟨_, .fail this⟩
        | next_ok _ _ _ => cases hq
        | next_fail hla hop hrest =>
          cases hq
          rename_i a1 r last
          rw [hcol] at hla hop
          have := (push_spec hl ht ho hla).2.2
          rw [hop] at this
          cases r with
          | updated c h =>
            obtain ⟨k, hk, ht1, hps⟩ := this
            obtain ⟨m', hm'⟩ := ih ht1 hcs hrest
            exact ⟨m', .later hps hm'⟩
          | _ => exact this.elim

end Bonsai.Typed
