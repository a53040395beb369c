import Verif.KV.C76d

/-!
# C76: nested namespaces; examples
-/
set_option linter.unusedSimpArgs false
set_option linter.unusedVariables false

namespace Bonsai.KV
open Bonsai Time Names

/-- The handle after `with_key_namespace` was called with each of the names in turn. -/
def nested (names : List String) : Handle := names.foldl Handle.withNamespace none

def joinZ : List Bytes → Bytes
  | [] => []
  | [a] => a
  | a :: b :: r => a ++ 0 :: joinZ (b :: r)

theorem joinZ_snoc (l : List Bytes) (hl : l ≠ []) (x : Bytes) : joinZ (l ++ [x]) = joinZ l ++ 0 :: x := by
  induction l with
  | nil => exact absurd rfl hl
  | cons a l ih =>
    cases l with
    | nil => rfl
    | cons b r =>
      show a ++ 0 :: joinZ ((b :: r) ++ [x]) = (a ++ 0 :: joinZ (b :: r)) ++ 0 :: x
      rw [ih (by simp)]
      simp

theorem joinZ_inj (l m : List Bytes) (hl : l ≠ []) (hm : m ≠ []) (zl : ∀ b ∈ l, (0 : UInt8) ∉ b)
    (zm : ∀ b ∈ m, (0 : UInt8) ∉ b) (h : joinZ l = joinZ m) : l = m := by
  induction l generalizing m with
  | nil => exact absurd rfl hl
  | cons a l ih =>
    cases m with
    | nil => exact absurd rfl hm
    | cons c m =>
      have za := zl a (by simp)
      have zc := zm c (by simp)
      cases l with
      | nil =>
        cases m with
        | nil => simp only [joinZ] at h; rw [h]
        | cons d m =>
          exfalso
          simp only [joinZ] at h
          exact za (by rw [h]; simp)
      | cons b l =>
        cases m with
        | nil =>
          exfalso
          simp only [joinZ] at h
          exact zc (by rw [← h]; simp)
        | cons d m =>
          simp only [joinZ] at h
          obtain ⟨h1, h2⟩ := split_unique _ _ _ _ za zc h
          rw [h1, ih (d :: m) (by simp) (by simp) (fun b hb => zl b (by simp only [List.mem_cons] at hb ⊢; exact .inr hb))
            (fun b hb => zm b (by simp only [List.mem_cons] at hb ⊢; exact .inr hb)) h2]

theorem strBytes_null (a b : String) : strBytes (a ++ "\x00" ++ b) = strBytes a ++ 0 :: strBytes b := by
  rw [strBytes_eq, strBytes_eq, strBytes_eq, String.toList_append, String.toList_append]
  have : ("\x00" : String).toList = ['\x00'] := by decide
  rw [this]
  unfold utf8
  rw [List.flatMap_append, List.flatMap_append]
  show _ ++ [0] ++ _ = _
  simp

theorem nested_snoc (l : List String) (x : String) : nested (l ++ [x]) = (nested l).withNamespace x := by
  unfold nested
  rw [List.foldl_append]
  rfl

theorem nested_bytes (l : List String) (hl : l ≠ []) :
    ∃ s, nested l = some s ∧ strBytes s = joinZ (l.map strBytes) := by
  induction hn : l.length generalizing l with
  | zero => exact absurd (List.length_eq_zero_iff.mp hn) hl
  | succ n ih =>
    obtain ⟨l', x, rfl⟩ : ∃ l' x, l = l' ++ [x] := ⟨l.dropLast, l.getLast hl, (List.dropLast_concat_getLast hl).symm⟩
    have hlen : l'.length = n := by simp at hn; exact hn
    rw [nested_snoc]
    by_cases h' : l' = []
    · subst h'
      exact ⟨x, rfl, rfl⟩
    · obtain ⟨s, h1, h2⟩ := ih l' h' hlen
      refine ⟨s ++ "\x00" ++ x, by rw [h1]; rfl, ?_⟩
      rw [strBytes_null, h2, List.map_append, List.map_singleton, joinZ_snoc _ (by simpa using h')]

theorem nested_key (l : List String) (k : String) :
    (nested l).key k = joinZ ((if l = [] then [[]] else l.map strBytes) ++ [strBytes k]) := by
  by_cases hl : l = []
  · subst hl
    rfl
  · obtain ⟨s, h1, h2⟩ := nested_bytes l hl
    rw [h1]
    simp only [hl, if_false]
    rw [joinZ_snoc _ (by simpa using hl), ← h2]
    rfl

/-- **C76 / C18.** Namespaces nested in each other are separate: different sequences of names, or different
keys, never address the same stored key — when names are not empty and neither names nor keys contain a
NUL. -/
theorem C76_nested_namespaces_are_separate_partial (l m : List String) (k j : String)
    (hl : ∀ n ∈ l, n ≠ "" ∧ NullFree n) (hm : ∀ n ∈ m, n ≠ "" ∧ NullFree n) (hk : NullFree k) (hj : NullFree j)
    (h : (nested l).key k = (nested m).key j) : l = m ∧ k = j := by
  rw [nested_key, nested_key] at h
  have zeros : ∀ (l : List String) (k : String), (∀ n ∈ l, n ≠ "" ∧ NullFree n) → NullFree k →
      ∀ b ∈ (if l = [] then [[]] else l.map strBytes) ++ [strBytes k], (0 : UInt8) ∉ b := by
    intro l k hl hk b hb
    simp only [List.mem_append, List.mem_singleton] at hb
    rcases hb with hb | rfl
    · split at hb
      · simp only [List.mem_singleton] at hb; subst hb; simp
      · obtain ⟨n, hn, rfl⟩ := List.mem_map.mp hb
        exact nullFree_bytes (hl n hn).2
    · exact nullFree_bytes hk
  have hh := joinZ_inj _ _ (by simp) (by simp) (zeros l k hl hk) (zeros m j hm hj) h
  obtain ⟨h1, h2⟩ := List.append_inj' hh rfl
  simp only [List.cons.injEq, and_true] at h2
  refine ⟨?_, strBytes_inj h2⟩
  have empt : ∀ n : String, n ≠ "" → strBytes n ≠ [] := fun n hn e => hn (strBytes_inj (e.trans (by decide)))
  by_cases hle : l = []
  · by_cases hme : m = []
    · rw [hle, hme]
    · exfalso
      rw [if_pos hle, if_neg hme] at h1
      cases m with
      | nil => exact hme rfl
      | cons n m =>
        simp only [List.map_cons, List.cons.injEq] at h1
        exact empt n (hm n (by simp)).1 h1.1.symm
  · by_cases hme : m = []
    · exfalso
      rw [if_neg hle, if_pos hme] at h1
      cases l with
      | nil => exact hle rfl
      | cons n l =>
        simp only [List.map_cons, List.cons.injEq] at h1
        exact empt n (hl n (by simp)).1 h1.1
    · rw [if_neg hle, if_neg hme] at h1
      exact List.map_inj_right (fun x y => strBytes_inj) |>.mp h1

/-- **C76 violated (F18).** A key with a NUL reaches into a nested namespace. -/
theorem C76_violated_key_reaches_nested_namespace (k : String) :
    (nested ["a", "b"]).key k = (nested ["a"]).key ("b" ++ "\x00" ++ k) := by
  have h1 : (nested ["a", "b"]).key k = strBytes "a" ++ 0 :: strBytes "b" ++ 0 :: strBytes k := by
    rw [nested_key]
    simp [joinZ]
  have h2 : (nested ["a"]).key ("b" ++ "\x00" ++ k) = strBytes "a" ++ 0 :: (strBytes "b" ++ 0 :: strBytes k) := by
    rw [nested_key, strBytes_null]
    simp [joinZ]
  rw [h1, h2]
  simp

/-- **C76.** A call through one handle and key changes what a read answers only for handles and keys that
address the same stored key. -/
theorem C76_calls_touch_one_key {α : Type} {st : St F64} (hst : Reach st) (c : Call α) {op : KeyOp F64}
    (hc : c.request = .ok op) (ck : Clock) (h : Handle) (key : String) (hne : h.key key ≠ op.key) :
    reads (c.run st ck).2 ck h key = reads st ck h key := by
  obtain ⟨_, r2, r3⟩ := run_ok hst.inv hc ck
  rw [reads_eq r3, reads_eq hst.inv, r2]
  have : Spec.expire ck.now (Spec.perform st.look ck.now op).2 (h.key key) =
      Spec.expire ck.now (Spec.expire ck.now st.look) (h.key key) := by
    have e : (Spec.perform st.look ck.now op).2 (h.key key) = Spec.expire ck.now st.look (h.key key) :=
      exec_other_key _ _ hne
    unfold Spec.expire at e ⊢
    rw [e]
  rw [this, expire_expire _ (Nat.le_refl _)]

/-! ## Reads -/

/-- **C76.** A read changes no key; with `and_delete` it removes its key, and no other. -/
theorem C76_read_leaves_and_delete_removes {st : St F64} (hst : Reach st) (ck : Clock) (h : Handle)
    (key : String) (delete : Bool) :
    ((getKey h key delete).run st ck).1 = reads st ck h key ∧
      (∀ h' key', (delete = true → h'.key key' ≠ h.key key) →
        reads ((getKey h key delete).run st ck).2 ck h' key' = reads st ck h' key') ∧
      (delete = true → reads ((getKey h key delete).run st ck).2 ck h key = .ok none) := by
  obtain ⟨r1, r2, r3⟩ := run_ok hst.inv (c := getKey h key delete) rfl ck
  refine ⟨by rw [r1, reads_eq hst.inv]; rfl, ?_, ?_⟩
  · intro h' key' hne
    cases delete with
    | true => exact C76_calls_touch_one_key hst (getKey h key true) rfl ck h' key' (hne rfl)
    | false =>
      rw [reads_eq r3, reads_eq hst.inv, r2]
      show Outcome.ok ((Spec.expire ck.now (Spec.expire ck.now st.look) (h'.key key')).map (·.1)) = _
      rw [expire_expire _ (Nat.le_refl _)]
  · rintro rfl
    rw [reads_eq r3, r2]
    have : (Spec.perform st.look ck.now ⟨h.key key, .get true⟩).2 (h.key key) = none := by
      show Spec.put (Spec.expire ck.now st.look) (h.key key) none (h.key key) = none
      simp [Spec.put]
    unfold Spec.expire
    rw [this]
    rfl

theorem convert_run {α : Type} {st : St F64} (hst : Reach st) (ck : Clock) (h : Handle) (key : String)
    (f : Value F64 → Except CallErr α) :
    ∃ held, reads st ck h key = .ok held ∧
      (held = none → (((getKey h key false).convert f).run st ck).1 = .ok none) ∧
      (∀ v, held = some v → (((getKey h key false).convert f).run st ck).1 =
        match f v with | .ok x => .ok (some x) | .error e => .err e) := by
  refine ⟨_, reads_eq hst.inv ck h key, ?_, ?_⟩
  · intro hn
    rw [(run_ok hst.inv (c := (getKey h key false).convert f) rfl ck).1]
    have e : (Spec.perform st.look ck.now ⟨h.key key, .get false⟩).1 =
      .ok (.value ((Spec.expire ck.now st.look (h.key key)).map (·.1))) := rfl
    rw [e, hn]
    rfl
  · intro v hv
    rw [(run_ok hst.inv (c := (getKey h key false).convert f) rfl ck).1]
    have e : (Spec.perform st.look ck.now ⟨h.key key, .get false⟩).1 =
      .ok (.value ((Spec.expire ck.now st.look (h.key key)).map (·.1))) := rfl
    rw [e, hv]
    rfl

/-- **C76.** `get_key(..).into_i64()`: nothing for an absent key; for a number that fits, exactly the number if
there is an answer and an error only if it is no `i64`; an error for bytes. -/
theorem C76_into_i64_partial {st : St F64} (hst : Reach st) (ck : Clock) (h : Handle) (key : String) :
    (reads st ck h key = .ok none → ((getKey h key false).intoI64.run st ck).1 = .ok none) ∧
    (∀ b, reads st ck h key = .ok (some (.bytes b)) →
      ((getKey h key false).intoI64.run st ck).1 = .err .conversion) ∧
    (∀ n, reads st ck h key = .ok (some (.numeric n)) → FitsI64 n →
      (∃ i : Int64, ((getKey h key false).intoI64.run st ck).1 = .ok (some i) ∧ n.exact = some (i.toInt * unit)) ∨
      (((getKey h key false).intoI64.run st ck).1 = .err .conversion ∧
        ∀ i : Int64, n.exact ≠ some (i.toInt * unit))) := by
  obtain ⟨held, h1, h2, h3⟩ := convert_run hst ck h key (fun v => orConversion v.asI64Strict)
  refine ⟨fun hr => ?_, fun b hr => ?_, fun n hr hf => ?_⟩
  · rw [h1] at hr; cases hr; exact h2 rfl
  · rw [h1] at hr; cases hr; exact h3 _ rfl
  · rw [h1] at hr; cases hr
    have e := h3 _ rfl
    cases hn : n.asI64Strict with
    | some i =>
      refine .inl ⟨i, ?_, C76_strict_i64_is_exact_partial n i hf hn⟩
      refine e.trans ?_
      have e2 : (Value.numeric n).asI64Strict = n.asI64Strict := rfl
      rw [e2, hn]
      rfl
    | none =>
      refine .inr ⟨?_, C76_strict_i64_refuses_only_what_it_must n hn⟩
      refine e.trans ?_
      have e2 : (Value.numeric n).asI64Strict = n.asI64Strict := rfl
      rw [e2, hn]
      rfl

/-- **C76.** `get_key(..).into_u64()`, likewise (`-0.0` aside). -/
theorem C76_into_u64_partial {st : St F64} (hst : Reach st) (ck : Clock) (h : Handle) (key : String) :
    (reads st ck h key = .ok none → ((getKey h key false).intoU64.run st ck).1 = .ok none) ∧
    (∀ b, reads st ck h key = .ok (some (.bytes b)) →
      ((getKey h key false).intoU64.run st ck).1 = .err .conversion) ∧
    (∀ n, reads st ck h key = .ok (some (.numeric n)) → FitsU64 n →
      (∃ u : UInt64, ((getKey h key false).intoU64.run st ck).1 = .ok (some u) ∧
        n.exact = some ((u.toNat : Int) * unit)) ∨
      (((getKey h key false).intoU64.run st ck).1 = .err .conversion ∧
        ((∀ f, n = .float f → f.units = 0 → f.neg = false) →
          ∀ u : UInt64, n.exact ≠ some ((u.toNat : Int) * unit)))) := by
  obtain ⟨held, h1, h2, h3⟩ := convert_run hst ck h key (fun v => orConversion v.asU64Strict)
  refine ⟨fun hr => ?_, fun b hr => ?_, fun n hr hf => ?_⟩
  · rw [h1] at hr; cases hr; exact h2 rfl
  · rw [h1] at hr; cases hr; exact h3 _ rfl
  · rw [h1] at hr; cases hr
    have e := h3 _ rfl
    cases hn : n.asU64Strict with
    | some u =>
      refine .inl ⟨u, ?_, C76_strict_u64_is_exact_partial n u hf hn⟩
      refine e.trans ?_
      have e2 : (Value.numeric n).asU64Strict = n.asU64Strict := rfl
      rw [e2, hn]
      rfl
    | none =>
      refine .inr ⟨?_, fun hz => C76_strict_u64_refuses_only_what_it_must_partial n hn hz⟩
      refine e.trans ?_
      have e2 : (Value.numeric n).asU64Strict = n.asU64Strict := rfl
      rw [e2, hn]
      rfl

/-- **C76.** `get_key(..).into_f64()`: exactly the number or an error. -/
theorem C76_into_f64 {st : St F64} (hst : Reach st) (ck : Clock) (h : Handle) (key : String) :
    (reads st ck h key = .ok none → ((getKey h key false).intoF64.run st ck).1 = .ok none) ∧
    (∀ b, reads st ck h key = .ok (some (.bytes b)) →
      ((getKey h key false).intoF64.run st ck).1 = .err .conversion) ∧
    (∀ n, reads st ck h key = .ok (some (.numeric n)) →
      (∃ f : F64, ((getKey h key false).intoF64.run st ck).1 = .ok (some f) ∧ (Numeric.float f).exact = n.exact) ∨
      ((getKey h key false).intoF64.run st ck).1 = .err .conversion) := by
  obtain ⟨held, h1, h2, h3⟩ := convert_run hst ck h key (fun v => orConversion v.asF64Strict)
  refine ⟨fun hr => ?_, fun b hr => ?_, fun n hr => ?_⟩
  · rw [h1] at hr; cases hr; exact h2 rfl
  · rw [h1] at hr; cases hr; exact h3 _ rfl
  · rw [h1] at hr; cases hr
    have e := h3 _ rfl
    cases hn : n.asF64Strict with
    | some f =>
      refine .inl ⟨f, ?_, C76_strict_f64_is_exact n f hn⟩
      refine e.trans ?_
      have e2 : (Value.numeric n).asF64Strict = n.asF64Strict := rfl
      rw [e2, hn]
      rfl
    | none =>
      refine .inr (e.trans ?_)
      have e2 : (Value.numeric n).asF64Strict = n.asF64Strict := rfl
      rw [e2, hn]
      rfl

/-! ## Examples -/

/-- A serializer for one-byte values. -/
def exPot : Pot UInt8 := ⟨fun v => some [v], fun | [v] => some v | _ => none, fun v b h => by cases h; rfl⟩

def exStart : St F64 := St.new .immediate 0 .empty []
def exLockSet : SetBuilder UInt8 := setKey none "k" (.serializable 7)

theorem exStart_reach : Reach exStart := ⟨.immediate, 0, [], [], [], .nil _⟩

/-- The lock is taken, tried for again by another, and released. -/
example : ((exLockSet.onlyIfVacant.execute exPot).run exStart (exClock 1)).1 = .ok .inserted ∧
    ((exLockSet.onlyIfVacant.execute exPot).run ((exLockSet.onlyIfVacant.execute exPot).run exStart (exClock 1)).2 (exClock 2)).1 =
      .ok .notChanged ∧
    ((deleteKey none "k").run ((exLockSet.onlyIfVacant.execute exPot).run exStart (exClock 1)).2 (exClock 3)).1 = .ok .deleted ∧
    ((exLockSet.onlyIfVacant.execute exPot).run
      ((deleteKey none "k").run ((exLockSet.onlyIfVacant.execute exPot).run exStart (exClock 1)).2 (exClock 3)).2 (exClock 4)).1 =
      .ok .inserted := ⟨rfl, rfl, rfl, rfl⟩

/-- Two tickets. -/
example : ((changeKey none "n" true (1 : UInt64)).run exStart (exClock 1)).1 = .ok 1 ∧
    ((changeKey none "n" true (1 : UInt64)).run
      ((changeKey none "n" true (1 : UInt64)).run exStart (exClock 1)).2 (exClock 2)).1 = .ok 2 := ⟨rfl, rfl⟩

example : ∃ as st, Run exStart [.op (exClock 1) ⟨Handle.key none "n", .increment (.unsigned 1) true⟩, .write,
      .finish 2, .op (exClock 3) ⟨Handle.key none "m", .delete⟩] as st := by
  exact ⟨_, _, .cons (.op _ _ _) (.cons (.write _ _ rfl rfl) (.cons (.finish _ _ rfl) (.cons (.op _ _ _) (.nil _))))⟩

/-- A value comes back, a number too; and a number is not a serialized value. -/
example : (((getKey none "k" false).into exPot).run ((exLockSet.execute exPot).run exStart (exClock 1)).2 (exClock 2)).1 =
      .ok (some 7) ∧
    ((getKey none "n" false).intoU64.run
      (((setKey (V := UInt8) none "n" (.numeric (.integer 5))).execute exPot).run exStart (exClock 1)).2 (exClock 2)).1 =
      .ok (some 5) ∧
    (((getKey none "n" false).into exPot).run
      (((setKey (V := UInt8) none "n" (.numeric (.integer 5))).execute exPot).run exStart (exClock 1)).2 (exClock 2)).1 =
      .err .conversion := ⟨rfl, rfl, rfl⟩

end Bonsai.KV
