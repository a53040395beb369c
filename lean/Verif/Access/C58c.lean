import Verif.Access.C58b

/-!
# C58: whatever happened to the data, someone was allowed to do it
-/
set_option linter.unusedSimpArgs false
set_option linter.unusedVariables false

namespace Bonsai.Access
open Bonsai Bonsai.Names Bonsai.Store Bonsai.Query

variable {F : Type}

/-- What happens to a database: calls of sessions, and queued mapping jobs. -/
inductive Event (F : Type) where
  | call (sess : Sess) (r : Request F)
  | background (v : View)

/-- The state after a history. -/
def run [KV.FloatOps F] (s : Schema) (dbName : String) : World F → List (Event F) → World F
  | w, [] => w
  | w, .call sess r :: es => run s dbName (perform s dbName sess w r).2 es
  | w, .background v :: es => run s dbName (w.background dbName v) es

/-- A session holds a permission to change this document. -/
def MayChange (dbName : String) (sess : Sess) (c : QName) (id : Bytes) : Prop :=
  sess.allows (.collection dbName c) .insert = true ∨
  sess.allows (.document dbName c id) .update = true ∨
  sess.allows (.document dbName c id) .overwrite = true ∨
  sess.allows (.document dbName c id) .delete = true

/-- The operation may change this document. -/
def Touches (op : Operation) (c : QName) (id : Bytes) : Prop :=
  op.collection = c ∧
    match op.command with
    | .insert .. => True
    | .update h _ => h.id = id
    | .overwrite i _ => i = id
    | .delete h => h.id = id
    | .check .. => False

theorem storeDoc_frame {s : Schema} {c : QName} {t t' : Trees} {i : Bytes} {d : Document}
    (h : storeDoc s c t i d = .ok t') {c' : QName} {id : Bytes}
    (hn : ¬ (c = c' ∧ i = id)) : (t'.docs c').get id = (t.docs c').get id := by
  unfold storeDoc at h
  rw [(updateEagerViews_docs h).1]
  dsimp only
  by_cases hc : c' = c
  · subst hc
    rw [upd_self, OMap.get_set_ne _ fun e => hn ⟨rfl, e⟩]
  · rw [upd_ne _ _ hc]

theorem execUpdate_frame {s : Schema} {c : QName} {t t' : Trees} {i : Bytes} {ch : Option Revision}
    {x : Bytes} {r : OpResult} (h : execUpdate s c t i ch x = .ok (t', r)) {c' : QName} {id : Bytes}
    (hn : ¬ (c = c' ∧ i = id)) : (t'.docs c').get id = (t.docs c').get id := by
  unfold execUpdate at h
  split at h
  · cases h
  · cases h; rfl
  · split at h
    · cases h
    · rename_i hs
      cases h
      exact storeDoc_frame hs hn

theorem execOp_frame {s : Schema} {t t' : Trees} {op : Operation} {r : OpResult}
    (h : execOp s t op = .ok (t', r)) {c : QName} {id : Bytes} (hn : ¬ Touches op c id) :
    (t'.docs c).get id = (t.docs c).get id := by
  obtain ⟨c0, cmd⟩ := op
  cases cmd with
  | insert oid x =>
    have hc : c ≠ c0 := fun e => hn ⟨e.symm, trivial⟩
    simp only [execOp, execInsert] at h
    split at h
    · cases h
    · split at h
      · cases h
      · split at h
        · cases h
        · rename_i hs
          cases h
          exact storeDoc_frame hs fun e => hc e.1.symm
  | update hd x => exact execUpdate_frame h hn
  | overwrite i x => exact execUpdate_frame h hn
  | delete hd =>
    simp only [execOp, execDelete] at h
    split at h
    · cases h
    · split at h
      · split at h
        · cases h
        · rename_i hs
          cases h
          rw [(updateEagerViews_docs hs).1]
          dsimp only
          by_cases hc : c = c0
          · subst hc
            rw [upd_self, OMap.get_remove_ne _ fun e => hn ⟨rfl, e⟩]
          · rw [upd_ne _ _ hc]
      · cases h
  | check i rev =>
    simp only [execOp, execCheck] at h
    split at h
    · cases h
    · split at h
      · split at h
        · cases h
        · cases h; rfl
      · cases h; rfl

theorem runOps_frame {s : Schema} {c : QName} {id : Bytes} : ∀ {ops : List Operation} {t ch t' ch' rs},
    runOps s t ch ops = .ok (t', ch', rs) → (∀ op ∈ ops, ¬ Touches op c id) →
    (t'.docs c).get id = (t.docs c).get id
  | [], t, ch, t', ch', rs, h, _ => by simp only [runOps] at h; cases h; rfl
  | op :: ops, t, ch, t', ch', rs, h, hn => by
    simp only [runOps] at h
    split at h
    · cases h
    · rename_i t1 r1 he
      split at h
      · cases h
      · split at h
        · cases h
        · rename_i hr
          cases h
          rw [runOps_frame hr fun o ho => hn o (.tail _ ho)]
          exact execOp_frame he (hn op (.head _))

theorem applyToRoots_frame {s : Schema} {db : Db} {tid : Nat} {ops : List Operation} {c : QName}
    {id : Bytes} (hn : ∀ op ∈ ops, ¬ Touches op c id) :
    getDoc (applyToRoots s db tid ops).2 c id = getDoc db c id := by
  unfold applyToRoots
  split
  · rfl
  · rename_i t ch rs hp
    unfold prepare at hp
    split at hp
    · split at hp
      · cases hp
      · rename_i hr
        cases hp
        have k := runOps_frame hr hn
        exact k
    · cases hp

/-! ## Views leave documents alone -/

/-- Documents, key-value store, relay and compactions are the same. -/
structure Frame (a b : World F) : Prop where
  docs : b.db.trees.docs = a.db.trees.docs
  kv : b.kv = a.kv
  subscribers : b.subscribers = a.subscribers
  relay : b.relay = a.relay
  published : b.published = a.published
  compacted : b.compacted = a.compacted

theorem Frame.refl (a : World F) : Frame a a := ⟨rfl, rfl, rfl, rfl, rfl, rfl⟩

theorem Frame.trans {a b c : World F} (h : Frame a b) (k : Frame b c) : Frame a c :=
  ⟨k.1.trans h.1, k.2.trans h.2, k.3.trans h.3, k.4.trans h.4, k.5.trans h.5, k.6.trans h.6⟩

theorem scan_frame (w : World F) (s : Sess) (v : View) : Frame w (w.scan s v).2 := by
  unfold World.scan
  split
  · exact .refl _
  · split <;> exact ⟨rfl, rfl, rfl, rfl, rfl, rfl⟩

theorem mapWith_frame (w : World F) (dbName : String) (s : Sess) (v : View) :
    Frame w (w.mapWith dbName s v).2 := by
  unfold World.mapWith
  split
  · split
    · exact .refl _
    · split
      · exact ⟨rfl, rfl, rfl, rfl, rfl, rfl⟩
      · split <;> exact ⟨rfl, rfl, rfl, rfl, rfl, rfl⟩
  · exact .refl _

theorem mapNow_frame (w : World F) (dbName : String) (s : Sess) (v : View) :
    Frame w (w.mapNow dbName s v).2 :=
  (⟨rfl, rfl, rfl, rfl, rfl, rfl⟩ : Frame w { w with jobs := w.jobs.filter fun j => j.1 ≠ v.name }).trans
    (mapWith_frame _ _ _ _)

theorem updateView_frame (w : World F) (dbName : String) (s : Sess) (v : View) (b : Bool) :
    Frame w (w.updateView dbName s v b).2 := by
  have h := scan_frame w s v
  unfold World.updateView
  generalize (w.scan s v).2 = u at h
  dsimp only
  split
  · split
    · exact h
    · split
      · split
        · have hm := mapNow_frame u dbName s v
          generalize u.mapNow dbName s v = a at hm
          obtain ⟨a1, a2⟩ := a
          cases a1 <;> exact h.trans hm
        · exact h.trans ⟨rfl, rfl, rfl, rfl, rfl, rfl⟩
      · exact h
  · exact h

theorem readView_frame {α : Type} (w : World F) (dbName : String) (s : Sess) (v : View) (p : Policy)
    (f : OMap ViewEntry → α) : Frame w (w.readView dbName s v p f).2 := by
  cases p with
  | updateBefore =>
    have h := updateView_frame w dbName s v true
    simp only [World.readView]
    generalize w.updateView dbName s v true = a at h
    obtain ⟨a1, a2⟩ := a
    cases a1 <;> exact h
  | noUpdate => exact scan_frame w s v
  | updateAfter =>
    have h := (scan_frame w s v).trans (updateView_frame (w.scan s v).2 dbName s v false)
    simp only [World.readView]
    generalize (w.scan s v).2.updateView dbName s v false = a at h
    obtain ⟨a1, a2⟩ := a
    cases a1 <;> exact h

theorem scanAll_frame (s : Sess) : ∀ (vs : List View) (w : World F), Frame w (w.scanAll s vs).2
  | [], w => .refl w
  | v :: vs, w => (scan_frame w s v).trans (scanAll_frame s vs _)

theorem mapAll_frame (dbName : String) (s : Sess) : ∀ (vs : List View) (w : World F),
    Frame w (w.mapAll dbName s vs).2
  | [], w => .refl w
  | v :: vs, w => by
    have h := mapNow_frame w dbName s v
    simp only [World.mapAll]
    generalize w.mapNow dbName s v = a at h
    obtain ⟨a1, a2⟩ := a
    cases a1 with
    | error e => exact h
    | ok _ => exact h.trans (mapAll_frame dbName s vs a2)

theorem allowed_touches {dbName : String} {sess : Sess} {op : Operation} {c : QName} {id : Bytes}
    (h : sess.mayApply dbName op = true) (ht : Touches op c id) : MayChange dbName sess c id := by
  obtain ⟨c0, cmd⟩ := op
  obtain ⟨hc, ht⟩ := ht
  dsimp only at hc
  subst hc
  cases cmd with
  | insert => exact .inl h
  | update hd x => cases ht; exact .inr (.inl h)
  | overwrite i x => cases ht; exact .inr (.inr (.inl h))
  | delete hd => cases ht; exact .inr (.inr (.inr h))
  | check => exact ht.elim

/-- All but the documents is the same, and a document only differs if the session may change it. -/
structure Changed (dbName : String) (sess : Sess) (a b : World F) : Prop where
  docs : ∀ c id, getDoc b.db c id ≠ getDoc a.db c id → MayChange dbName sess c id
  kv : b.kv = a.kv
  subscribers : b.subscribers = a.subscribers
  relay : b.relay = a.relay
  published : b.published = a.published
  compacted : b.compacted = a.compacted

theorem Frame.changed {dbName : String} {sess : Sess} {a b : World F} (h : Frame a b) :
    Changed dbName sess a b :=
  ⟨fun c id hne => absurd (by unfold getDoc; rw [h.docs]) hne, h.2, h.3, h.4, h.5, h.6⟩

theorem Changed.after {dbName : String} {sess : Sess} {a b c : World F} (h : Frame a b)
    (k : Changed dbName sess b c) : Changed dbName sess a c := by
  refine ⟨fun q id hne => k.docs q id ?_, k.2.trans h.2, k.3.trans h.3, k.4.trans h.4, k.5.trans h.5,
    k.6.trans h.6⟩
  intro he
  apply hne
  rw [he]
  unfold getDoc
  rw [h.docs]

theorem apply_changed (s : Schema) (dbName : String) (sess : Sess) (w : World F) (tid : Nat)
    (ops : List Operation) : Changed dbName sess w (w.apply s dbName sess tid ops).2 := by
  unfold World.apply
  split
  · rename_i hall
    have h := (scanAll_frame sess (eagerViews s ops) w).trans
      (mapAll_frame dbName sess (w.scanAll sess (eagerViews s ops)).1 _)
    dsimp only
    generalize World.mapAll (w.scanAll sess (eagerViews s ops)).2 dbName sess
      (w.scanAll sess (eagerViews s ops)).1 = a at h
    obtain ⟨a1, a2⟩ := a
    cases a1 with
    | error e => exact h.changed
    | ok _ =>
      dsimp only at h ⊢
      refine Changed.after h ?_
      have hfr : ∀ c id, getDoc (applyToRoots s a2.db tid ops).2 c id ≠ getDoc a2.db c id →
          MayChange dbName sess c id := by
        intro c id hne
        refine Classical.byContradiction fun hno => hne (applyToRoots_frame fun op hop ht => hno ?_)
        exact allowed_touches (List.all_eq_true.mp hall op hop) ht
      generalize applyToRoots s a2.db tid ops = q at hfr
      obtain ⟨q1, q2⟩ := q
      cases q1 <;> exact ⟨hfr, rfl, rfl, rfl, rfl, rfl⟩
  · exact (Frame.refl w).changed

theorem query_frame (s : Schema) (dbName : String) (sess : Sess) (w : World F) (n : VName)
    (key : Option (QueryKey Bytes)) (order : Sort') (limit : Option Nat) (p : Policy) :
    Frame w (w.query s dbName sess n key order limit p).2 := by
  unfold World.query
  split
  · exact .refl _
  · unfold guarded
    split
    · exact readView_frame ..
    · exact .refl _

theorem groups_frame (s : Schema) (dbName : String) (sess : Sess) (w : World F) (n : VName)
    (key : Option (QueryKey Bytes)) (p : Policy) :
    Frame w (w.reduceGroups s dbName sess n key p).2 := by
  unfold World.reduceGroups
  split
  · exact .refl _
  · unfold guarded
    split
    · exact readView_frame ..
    · exact .refl _

theorem respond_world {α : Type} (f : α → Response F) (r : Except Err α × World F) :
    (respond f r).2 = r.2 := by
  obtain ⟨r1, r2⟩ := r
  cases r1 <;> rfl

theorem getMany_world (dbName : String) (sess : Sess) (w : World F) (c : QName) (ids : List Bytes) :
    (World.getMany dbName sess w c ids).2 = w := by
  unfold World.getMany
  split <;> rfl

/-- What a call leaves behind: a changed document needs a permission to change it, a changed key-value
store a key operation permitted on its key, a published message permission for its topic, a changed
subscription permission for the topic, a new subscriber permission to create it, a compaction
permission to compact. -/
structure Lawful (dbName : String) (sess : Sess) (r : Request F) (a b : World F) : Prop where
  docs : ∀ c id, getDoc b.db c id ≠ getDoc a.db c id → MayChange dbName sess c id
  kv : b.kv ≠ a.kv → ∃ ns key cmd ck, r = .keyOp ns key cmd ck ∧
    sess.allows (.key dbName ns key) .keyOperation = true
  subscribers : b.subscribers ≠ a.subscribers → sess.allows (.database dbName) .createSubscriber = true
  relay : b.relay ≠ a.relay → ∃ sub topic,
    (r = .subscribe sub topic ∧ sess.allows (.topic dbName topic) .subscribeTo = true) ∨
    (r = .unsubscribe sub topic ∧ sess.allows (.topic dbName topic) .unsubscribeFrom = true)
  published : ∃ new, b.published = a.published ++ new ∧ ∀ m ∈ new, ∃ topic,
    m.1 = databaseTopic dbName topic ∧ sess.allows (.topic dbName topic) .publish = true
  compacted : ∃ new, b.compacted = a.compacted ++ new ∧ ∀ t ∈ new, sess.allows t .compact = true

theorem Changed.lawful {dbName : String} {sess : Sess} {r : Request F} {a b : World F}
    (h : Changed dbName sess a b) : Lawful dbName sess r a b :=
  ⟨h.docs, fun hn => absurd h.kv hn, fun hn => absurd h.subscribers hn, fun hn => absurd h.relay hn,
    ⟨[], by simp [h.published], by simp⟩, ⟨[], by simp [h.compacted], by simp⟩⟩

theorem Lawful.refl {dbName : String} {sess : Sess} {r : Request F} {a : World F} :
    Lawful dbName sess r a a := (Frame.refl a).changed.lawful

/-- **C58.** Whatever a call changes, its session holds the permission for exactly that. -/
theorem C58_effects_need_permission [KV.FloatOps F] (s : Schema) (dbName : String) (sess : Sess)
    (w : World F) (r : Request F) : Lawful dbName sess r w (perform s dbName sess w r).2 := by
  cases r with
  | apply ops tid =>
    simp only [perform, respond_world]
    exact (apply_changed ..).lawful
  | getMultiple c ids =>
    simp only [perform, respond_world, getMany_world]
    exact .refl
  | query n key order limit p =>
    simp only [perform, respond_world]
    exact (query_frame ..).changed.lawful
  | queryWithDocs n key order limit p =>
    simp only [perform, respond_world]
    have h := query_frame s dbName sess w n key order limit p
    unfold World.queryDocs
    generalize w.query s dbName sess n key order limit p = a at h
    obtain ⟨a1, a2⟩ := a
    cases a1 with
    | error e => exact h.changed.lawful
    | ok ms =>
      dsimp only at h ⊢
      split
      · rename_i hq
        have hg := congrArg Prod.snd hq
        rw [getMany_world] at hg
        subst hg
        exact h.changed.lawful
      · rename_i hq
        have hg := congrArg Prod.snd hq
        rw [getMany_world] at hg
        subst hg
        exact h.changed.lawful
  | reduceGrouped n key p =>
    simp only [perform, respond_world]
    exact (groups_frame ..).changed.lawful
  | reduce n key p =>
    simp only [perform, respond_world]
    have h := groups_frame s dbName sess w n key p
    unfold World.reduceAll
    generalize w.reduceGroups s dbName sess n key p = a at h
    obtain ⟨a1, a2⟩ := a
    cases a1 with
    | error e => exact h.changed.lawful
    | ok gs =>
      rcases gs with _ | ⟨g, _ | ⟨g', gs⟩⟩
      · dsimp only
        cases findView s n with
        | none => exact h.changed.lawful
        | some v => dsimp only; cases v.reduce [] true <;> exact h.changed.lawful
      · exact h.changed.lawful
      · dsimp only
        cases findView s n with
        | none => exact h.changed.lawful
        | some v => dsimp only; cases v.reduce (g :: g' :: gs) true <;> exact h.changed.lawful
  | deleteDocs n key p tid =>
    simp only [perform, respond_world]
    unfold World.deleteDocs
    split
    · exact .refl
    · rename_i v hf
      have h := readView_frame w dbName sess v p fun es => deleteOps v.name.collection es key
      generalize (w.readView dbName sess v p fun es => deleteOps v.name.collection es key) = a at h
      obtain ⟨a1, a2⟩ := a
      cases a1 with
      | error e => exact h.changed.lawful
      | ok ops =>
        dsimp only at h ⊢
        have k := apply_changed s dbName sess a2 tid ops
        generalize World.apply s dbName sess a2 tid ops = b at k
        obtain ⟨b1, b2⟩ := b
        cases b1 <;> exact (Changed.after h k).lawful
  | keyOp ns key command clock =>
    simp only [perform, guarded]
    split
    · rename_i hp
      generalize w.kv.perform clock ⟨fullKey ns key, command⟩ = q
      obtain ⟨q1, q2⟩ := q
      cases q1 <;>
      exact ⟨fun c id hne => absurd rfl hne, fun _ => ⟨_, _, _, _, rfl, hp⟩, fun hn => absurd rfl hn,
        fun hn => absurd rfl hn, ⟨[], by simp, by simp⟩, ⟨[], by simp, by simp⟩⟩
    · exact .refl
  | createSubscriber =>
    simp only [perform, guarded]
    split
    · rename_i hp
      exact ⟨fun c id hne => absurd rfl hne, fun hn => absurd rfl hn, fun _ => hp,
        fun hn => absurd rfl hn, ⟨[], by simp, by simp⟩, ⟨[], by simp, by simp⟩⟩
    · exact .refl
  | publish topic payload =>
    simp only [perform, guarded]
    split
    · rename_i hp
      refine ⟨fun c id hne => absurd rfl hne, fun hn => absurd rfl hn, fun hn => absurd rfl hn,
        fun hn => absurd rfl hn, ⟨[(databaseTopic dbName topic, payload)], rfl, ?_⟩, ⟨[], by simp, by simp⟩⟩
      intro m hm
      rw [List.mem_singleton] at hm
      subst hm
      exact ⟨topic, rfl, hp⟩
    · exact .refl
  | publishAll topics payload =>
    simp only [perform]
    split
    · rename_i hp
      refine ⟨fun c id hne => absurd rfl hne, fun hn => absurd rfl hn, fun hn => absurd rfl hn,
        fun hn => absurd rfl hn, ⟨_, rfl, ?_⟩, ⟨[], by simp, by simp⟩⟩
      intro m hm
      rw [List.mem_map] at hm
      obtain ⟨t, ht, rfl⟩ := hm
      exact ⟨t, rfl, List.all_eq_true.mp hp t ht⟩
    · exact .refl
  | subscribe sub topic =>
    simp only [perform, guarded]
    split
    · rename_i hp
      exact ⟨fun c id hne => absurd rfl hne, fun hn => absurd rfl hn, fun hn => absurd rfl hn,
        fun _ => ⟨sub, topic, .inl ⟨rfl, hp⟩⟩, ⟨[], by simp, by simp⟩, ⟨[], by simp, by simp⟩⟩
    · exact .refl
  | unsubscribe sub topic =>
    simp only [perform, guarded]
    split
    · rename_i hp
      exact ⟨fun c id hne => absurd rfl hne, fun hn => absurd rfl hn, fun hn => absurd rfl hn,
        fun _ => ⟨sub, topic, .inr ⟨rfl, hp⟩⟩, ⟨[], by simp, by simp⟩, ⟨[], by simp, by simp⟩⟩
    · exact .refl
  | compact =>
    simp only [perform, guarded]
    split
    · rename_i hp
      exact ⟨fun c id hne => absurd rfl hne, fun hn => absurd rfl hn, fun hn => absurd rfl hn,
        fun hn => absurd rfl hn, ⟨[], by simp, by simp⟩, ⟨_, rfl, by simpa using hp⟩⟩
    · exact .refl
  | compactCollection c =>
    simp only [perform, guarded]
    split
    · rename_i hp
      exact ⟨fun c id hne => absurd rfl hne, fun hn => absurd rfl hn, fun hn => absurd rfl hn,
        fun hn => absurd rfl hn, ⟨[], by simp, by simp⟩, ⟨_, rfl, by simpa using hp⟩⟩
    · exact .refl
  | compactKeyValue =>
    simp only [perform, guarded]
    split
    · rename_i hp
      exact ⟨fun c id hne => absurd rfl hne, fun hn => absurd rfl hn, fun hn => absurd rfl hn,
        fun hn => absurd rfl hn, ⟨[], by simp, by simp⟩, ⟨_, rfl, by simpa using hp⟩⟩
    · exact .refl
  | _ =>
    simp only [perform, guarded]
    split <;> exact .refl

theorem background_frame (w : World F) (dbName : String) (v : View) :
    Frame w (w.background dbName v) := by
  unfold World.background
  split
  · exact mapNow_frame ..
  · exact .refl _

/-- **C58.** Over every history of calls by any sessions, with mapping jobs in between: a document
that is different at the end was in reach of a session that called and may change it, a message
published meanwhile was published by a session that may publish to its topic, and a key-value store
that is different had a permitted key operation. -/
theorem C58_history_authorised [KV.FloatOps F] (s : Schema) (dbName : String) : ∀ (es : List (Event F))
    (w : World F),
    (∀ c id, getDoc (run s dbName w es).db c id ≠ getDoc w.db c id →
      ∃ sess r, .call sess r ∈ es ∧ MayChange dbName sess c id) ∧
    (∃ new, (run s dbName w es).published = w.published ++ new ∧ ∀ m ∈ new, ∃ sess r topic,
      .call sess r ∈ es ∧ m.1 = databaseTopic dbName topic ∧
        sess.allows (.topic dbName topic) .publish = true) ∧
    ((run s dbName w es).kv ≠ w.kv → ∃ sess ns key cmd ck,
      .call sess (.keyOp ns key cmd ck) ∈ es ∧ sess.allows (.key dbName ns key) .keyOperation = true)
  | [], w => ⟨fun c id h => absurd rfl h, ⟨[], by simp [run], by simp⟩, fun h => absurd rfl h⟩
  | .call sess r :: es, w => by
    obtain ⟨h1, ⟨new, h2, h3⟩, h4⟩ := C58_history_authorised s dbName es (perform s dbName sess w r).2
    have hl := C58_effects_need_permission s dbName sess w r
    obtain ⟨n0, hp0, hp1⟩ := hl.published
    refine ⟨?_, ⟨n0 ++ new, ?_, ?_⟩, ?_⟩
    · intro c id hne
      simp only [run] at hne
      by_cases he : getDoc (perform s dbName sess w r).2.db c id = getDoc w.db c id
      · obtain ⟨se, rr, hm, hc⟩ := h1 c id (by rw [he]; exact hne)
        exact ⟨se, rr, .tail _ hm, hc⟩
      · exact ⟨sess, r, .head _, hl.docs c id he⟩
    · simp only [run]
      rw [h2, hp0, List.append_assoc]
    · intro m hm
      rcases List.mem_append.mp hm with hm | hm
      · obtain ⟨t, a, b⟩ := hp1 m hm
        exact ⟨sess, r, t, .head _, a, b⟩
      · obtain ⟨se, rr, t, a, b, c⟩ := h3 m hm
        exact ⟨se, rr, t, .tail _ a, b, c⟩
    · intro hne
      simp only [run] at hne
      by_cases he : (perform s dbName sess w r).2.kv = w.kv
      · obtain ⟨se, ns, key, cmd, ck, hm, hc⟩ := h4 (by rw [he]; exact hne)
        exact ⟨se, ns, key, cmd, ck, .tail _ hm, hc⟩
      · obtain ⟨ns, key, cmd, ck, rfl, hc⟩ := hl.kv he
        exact ⟨sess, ns, key, cmd, ck, .head _, hc⟩
  | .background v :: es, w => by
    obtain ⟨h1, ⟨new, h2, h3⟩, h4⟩ := C58_history_authorised s dbName es (w.background dbName v)
    have hf := background_frame w dbName v
    refine ⟨?_, ⟨new, ?_, ?_⟩, ?_⟩
    · intro c id hne
      simp only [run] at hne
      have he : getDoc (w.background dbName v).db c id = getDoc w.db c id := by
        unfold getDoc; rw [hf.docs]
      obtain ⟨se, rr, hm, hc⟩ := h1 c id (by rw [he]; exact hne)
      exact ⟨se, rr, .tail _ hm, hc⟩
    · simp only [run]
      rw [h2, hf.published]
    · intro m hm
      obtain ⟨se, rr, t, a, b, c⟩ := h3 m hm
      exact ⟨se, rr, t, .tail _ a, b, c⟩
    · intro hne
      simp only [run] at hne
      obtain ⟨se, ns, key, cmd, ck, hm, hc⟩ := h4 (by rw [hf.kv]; exact hne)
      exact ⟨se, ns, key, cmd, ck, .tail _ hm, hc⟩

end Bonsai.Access
