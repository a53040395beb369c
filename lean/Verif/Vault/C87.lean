import Verif.Vault.Stores

/-!
# C87 — a vault key storage gives back the key that was stored for a storage, and no other
-/
set_option linter.unusedVariables false
set_option linter.unusedSimpArgs false
set_option linter.unusedSectionVars false

namespace Bonsai.Vault

variable {Pair Pub Rand MK Boxed : Type}

/-! ## Specification -/

/-- Two prefixes name the same folder: they are equal, but for a slash at the end of one that is not empty. -/
def SamePrefix (p p' : Bytes) : Prop :=
  p = p' ∨ (p ≠ [] ∧ p.getLast? ≠ some 47 ∧ p' = p ++ [47]) ∨ (p' ≠ [] ∧ p'.getLast? ≠ some 47 ∧ p = p' ++ [47])

/-- Two key storages are one: both the directory, or both the bucket with the same folder. -/
def SameStore : Kind → Kind → Prop
  | .dir, .dir => True
  | .s3 p, .s3 p' => SamePrefix p p'
  | _, _ => False

/-- The call sets a key of this storage id in this key storage. -/
def Ev.Sets (k : Kind) (id : Nat) : Ev Pair → Prop
  | .set k' id' _ _ => id' = id ∧ SameStore k' k
  | .get _ _ _ => False

/-! ## Places -/

theorem hexDigit_inj {a b : Nat} (ha : a < 16) (hb : b < 16) (h : DocId.hexDigit a = DocId.hexDigit b) : a = b := by
  have key : ∀ i j : Fin 16, DocId.hexDigit i.val = DocId.hexDigit j.val → i = j := by decide
  have := key ⟨a, ha⟩ ⟨b, hb⟩ h
  exact Fin.mk.inj_iff.1 this

theorem hex2_inj {a b : UInt8} (h : DocId.hex2 a = DocId.hex2 b) : a = b := by
  simp only [DocId.hex2, List.cons.injEq, and_true] at h
  have ha : a.toNat < 256 := a.toNat_lt
  have hb : b.toNat < 256 := b.toNat_lt
  have h1 := hexDigit_inj (by omega) (by omega) h.1
  have h2 := hexDigit_inj (by omega) (by omega) h.2
  exact UInt8.toNat_inj.1 (by omega)

theorem flatMap_hex2_inj {a b : Bytes} (h : a.flatMap DocId.hex2 = b.flatMap DocId.hex2) : a = b := by
  induction a generalizing b with
  | nil =>
    cases b with
    | nil => rfl
    | cons y b => simp [DocId.hex2] at h
  | cons x a ih =>
    cases b with
    | nil => simp [DocId.hex2] at h
    | cons y b =>
      simp only [List.flatMap_cons] at h
      obtain ⟨h1, h2⟩ := List.append_inj h (by simp [DocId.hex2])
      rw [hex2_inj h1, ih h2]

theorem idName_length (id : Nat) : (idName id).length = 16 := by
  rw [idName, DocId.flatMap_hex2_length, toBE_length]

theorem idName_inj {a b : Nat} (ha : a < 2 ^ 64) (hb : b < 2 ^ 64) (h : idName a = idName b) : a = b := by
  have := flatMap_hex2_inj h
  have h1 := fromBE_toBE (w := 8) (n := a) (by omega)
  have h2 := fromBE_toBE (w := 8) (n := b) (by omega)
  rw [← h1, ← h2, this]

theorem getLast_slash (p : Bytes) : (p ++ [47]).getLast? = some 47 := by simp

/-- **C87 (places)**: the keys of two storages are at the same place exactly if the ids are equal and the key storages
are one. -/
theorem C87_places {k k' : Kind} {a b : Nat} (ha : a < 2 ^ 64) (hb : b < 2 ^ 64) :
    placeOf k a = placeOf k' b ↔ a = b ∧ SameStore k k' := by
  cases k with
  | dir =>
    cases k' with
    | dir =>
      simp only [placeOf, Prod.mk.injEq, true_and, SameStore, and_true]
      exact ⟨fun h => idName_inj ha hb h, fun h => by rw [h]⟩
    | s3 p => simp [placeOf, SameStore]
  | s3 p =>
    cases k' with
    | dir => simp [placeOf, SameStore]
    | s3 p' =>
      simp only [placeOf, Prod.mk.injEq, true_and, SameStore, pathForId]
      constructor
      · intro h
        obtain ⟨h1, h2⟩ := List.append_inj' h (by rw [idName_length, idName_length])
        refine ⟨idName_inj ha hb h2, ?_⟩
        by_cases c1 : p ≠ [] ∧ p.getLast? ≠ some 47 <;> by_cases c2 : p' ≠ [] ∧ p'.getLast? ≠ some 47
        · rw [if_pos c1, if_pos c2] at h1
          exact Or.inl (List.append_cancel_right h1)
        · rw [if_pos c1, if_neg c2] at h1
          exact Or.inr (Or.inl ⟨c1.1, c1.2, h1.symm⟩)
        · rw [if_neg c1, if_pos c2] at h1
          exact Or.inr (Or.inr ⟨c2.1, c2.2, h1⟩)
        · rw [if_neg c1, if_neg c2] at h1
          exact Or.inl h1
      · rintro ⟨rfl, h⟩
        congr 1
        rcases h with rfl | ⟨h1, h2, rfl⟩ | ⟨h1, h2, rfl⟩
        · rfl
        · rw [if_pos ⟨h1, h2⟩, if_neg (by simp)]
        · rw [if_neg (by simp), if_pos ⟨h1, h2⟩]

/-! ## Calls -/

theorem put_same (o : Objs) (l : Place) (b : Bytes) : o.put l b l = some b := by simp [Objs.put]

theorem put_other {o : Objs} {l l' : Place} {b : Bytes} (h : l' ≠ l) : o.put l b l' = o l' := by simp [Objs.put, h]

theorem setVault_other {c : Codec Pair} {k : Kind} {id : Nat} {key : Pair} {out : SetOut} {o o' : Objs} {l : Place}
    (h : SetVault c k id key out o o') (hl : l ≠ placeOf k id) : o' l = o l := by
  cases out with
  | ok => rw [h, put_other hl]
  | failed =>
    rcases h with rfl | rfl | ⟨_, b, _, rfl⟩
    · rfl
    · exact put_other hl
    · exact put_other hl
  | crashed =>
    rcases h with rfl | rfl | ⟨_, b, _, rfl⟩
    · rfl
    · exact put_other hl
    · exact put_other hl

/-- Ids are 64 bits. -/
def Ev.Ok : Ev Pair → Prop
  | .set _ id _ _ => id < 2 ^ 64
  | .get _ id _ => id < 2 ^ 64

theorem calls_other {c : Codec Pair} {k : Kind} {id : Nat} {o o' : Objs} {es : List (Ev Pair)} (hid : id < 2 ^ 64)
    (h : Calls c o es o') (hok : ∀ e ∈ es, e.Ok) (hno : ∀ e ∈ es, ¬ e.Sets k id) :
    o' (placeOf k id) = o (placeOf k id) := by
  induction h with
  | nil => rfl
  | @cons o o₁ o₂ e es he _ ih =>
    rw [ih (fun x hx => hok x (List.mem_cons_of_mem _ hx)) (fun x hx => hno x (List.mem_cons_of_mem _ hx))]
    cases e with
    | set k' id' key out =>
      refine setVault_other he ?_
      intro hp
      have := (C87_places hid (hok (.set k' id' key out) List.mem_cons_self)).1 hp
      refine hno _ List.mem_cons_self ⟨this.1.symm, ?_⟩
      have h2 := this.2
      cases k with
      | dir => cases k' with
        | dir => trivial
        | s3 _ => exact h2
      | s3 p => cases k' with
        | dir => exact h2
        | s3 p' =>
          rcases h2 with h2 | h2 | h2
          · exact Or.inl h2.symm
          · exact Or.inr (Or.inr h2)
          · exact Or.inr (Or.inl h2)
    | get k' id' r => rw [he.2]

/-- **C87 (what was stored is given back)**: after a key was stored for a storage id, and until another is set for the
same id in the same key storage, whatever is done for other ids, and whatever of that fails or is cut off, asking for
it gives that key, or an error of the file system or the network: never "no key", never another. -/
theorem C87_given_back {c : Codec Pair} (hc : LawfulCodec c) {k : Kind} {id : Nat} {key : Pair} {o o₁ o' : Objs}
    {es : List (Ev Pair)} {r : Res (Option Pair)} (hid : id < 2 ^ 64) (hset : SetVault c k id key .ok o o₁)
    (h : Calls c o₁ es o') (hok : ∀ e ∈ es, e.Ok) (hno : ∀ e ∈ es, ¬ e.Sets k id) (hg : GetVault c k id o' r) :
    r = .err ∨ r = .ok (some key) := by
  rcases hg with hg | hg
  · exact Or.inl hg
  · rw [calls_other hid h hok hno, show o₁ = o.put (placeOf k id) (c.enc key) from hset, put_same] at hg
    exact Or.inr (by rw [hg]; simp [readVault, hc.dec_enc])

/-- Keys given for a place. -/
def keysFor (k : Kind) (id : Nat) (es : List (Ev Pair)) (key : Pair) : Prop :=
  ∃ k' out, Ev.set k' id key out ∈ es ∧ SameStore k' k

theorem calls_known {c : Codec Pair} (hc : LawfulCodec c) {k : Kind} {id : Nat} {o o' : Objs} {es : List (Ev Pair)}
    (hid : id < 2 ^ 64) (h : Calls c o es o') (hok : ∀ e ∈ es, e.Ok) :
    o' (placeOf k id) = o (placeOf k id) ∨
      ∃ key b, keysFor k id es key ∧ o' (placeOf k id) = some b ∧ (b = c.enc key ∨ c.dec b = none) := by
  induction h with
  | nil => exact Or.inl rfl
  | @cons o o₁ o₂ e es he _ ih =>
    rcases ih (fun x hx => hok x (List.mem_cons_of_mem _ hx)) with hi | ⟨key, b, ⟨k', out, hm, hs⟩, hb⟩
    · rw [hi]
      cases e with
      | get k' id' r => rw [he.2]; exact Or.inl rfl
      | set k' id' key out =>
        by_cases hp : placeOf k' id' = placeOf k id
        · obtain ⟨rfl, hs⟩ := (C87_places (hok (.set k' id' key out) List.mem_cons_self) hid).1 hp
          have hk : keysFor k id' (Ev.set k' id' key out :: es) key := ⟨k', out, List.mem_cons_self, hs⟩
          have hpart : ∀ b, b <+: c.enc key → b = c.enc key ∨ c.dec b = none := by
            intro b hb
            by_cases hbe : b = c.enc key
            · exact Or.inl hbe
            · exact Or.inr (hc.incomplete key b hb hbe)
          cases out with
          | ok =>
            refine Or.inr ⟨key, c.enc key, hk, ?_, Or.inl rfl⟩
            rw [show o₁ = o.put (placeOf k' id') (c.enc key) from he, hp, put_same]
          | failed =>
            rcases he with rfl | rfl | ⟨_, b, hb, rfl⟩
            · exact Or.inl rfl
            · exact Or.inr ⟨key, c.enc key, hk, by rw [hp, put_same], Or.inl rfl⟩
            · exact Or.inr ⟨key, b, hk, by rw [hp, put_same], hpart b hb⟩
          | crashed =>
            rcases he with rfl | rfl | ⟨_, b, hb, rfl⟩
            · exact Or.inl rfl
            · exact Or.inr ⟨key, c.enc key, hk, by rw [hp, put_same], Or.inl rfl⟩
            · exact Or.inr ⟨key, b, hk, by rw [hp, put_same], hpart b hb⟩
        · exact Or.inl (setVault_other he (fun h => hp h.symm))
    · exact Or.inr ⟨key, b, ⟨k', out, List.mem_cons_of_mem _ hm, hs⟩, hb⟩

/-- **C87 (nothing made up)**: starting with nothing stored, a key that is given for a storage id was given to be stored
for that id, in the same key storage; half of a key is never given. -/
theorem C87_nothing_made_up {c : Codec Pair} (hc : LawfulCodec c) {k : Kind} {id : Nat} {key : Pair} {o' : Objs}
    {es : List (Ev Pair)} (hid : id < 2 ^ 64) (h : Calls c (fun _ => none) es o') (hok : ∀ e ∈ es, e.Ok)
    (hg : GetVault c k id o' (.ok (some key))) : keysFor k id es key := by
  rcases hg with hg | hg
  · cases hg
  · rcases calls_known hc hid h hok with h0 | ⟨key', b, hk, hb, hx⟩
    · rw [h0] at hg; cases hg
    · rw [hb] at hg
      rcases hx with rfl | hx
      · simp only [readVault, hc.dec_enc, Res.ok.injEq, Option.some.injEq] at hg
        rw [hg]; exact hk
      · simp [readVault, hx] at hg

/-- **C87 (no key means none was stored)**: "no key" is answered for a storage id only if no key was ever stored
successfully for it in that key storage. -/
theorem C87_absent {c : Codec Pair} {k : Kind} {id : Nat} {o o' : Objs} {es : List (Ev Pair)} (hid : id < 2 ^ 64)
    (h : Calls c o es o') (hok : ∀ e ∈ es, e.Ok) (hg : GetVault c k id o' (.ok none)) {k' : Kind} {key : Pair}
    (hk : SameStore k' k) : Ev.set k' id key .ok ∉ es := by
  have hnone : o' (placeOf k id) = none := by
    rcases hg with hg | hg
    · cases hg
    · cases ho : o' (placeOf k id) with
      | none => rfl
      | some b =>
        rw [ho] at hg
        simp only [readVault] at hg
        split at hg <;> simp at hg
  intro hm
  have hpl : placeOf k' id = placeOf k id := (C87_places hid hid).2 ⟨rfl, hk⟩
  have key2 : ∀ {a b : Objs} {es : List (Ev Pair)}, Calls c a es b → a (placeOf k id) ≠ none →
      b (placeOf k id) ≠ none := by
    intro a b es hab
    induction hab with
    | nil => exact fun h => h
    | @cons a a₁ b e es he _ ih =>
      intro ha
      apply ih
      cases e with
      | get _ _ _ => rw [he.2]; exact ha
      | set k₂ id₂ key₂ out =>
        by_cases hp : placeOf k id = placeOf k₂ id₂
        · cases out with
          | ok => rw [show a₁ = a.put _ _ from he, hp, put_same]; simp
          | failed => rcases he with rfl | rfl | ⟨_, b, _, rfl⟩ <;> first | exact ha | (rw [hp, put_same]; simp)
          | crashed => rcases he with rfl | rfl | ⟨_, b, _, rfl⟩ <;> first | exact ha | (rw [hp, put_same]; simp)
        · rw [setVault_other he hp]; exact ha
  have main : ∀ {a b : Objs} {es : List (Ev Pair)}, Calls c a es b → Ev.set k' id key .ok ∈ es →
      b (placeOf k id) ≠ none := by
    intro a b es hab
    induction hab with
    | nil => intro hm; cases hm
    | @cons a a₁ b e es he hrest ih =>
      intro hm
      rcases List.mem_cons.1 hm with rfl | hm
      · refine key2 hrest ?_
        rw [show a₁ = a.put _ _ from he, hpl, put_same]; simp
      · exact ih hm
  exact main h hm hnone

/-- **C87 (a missing key is not an error)**: for a storage id for which no call to store a key was made, starting with
nothing stored, the answer is "no key", unless the file system or the network fails. -/
theorem C87_missing {c : Codec Pair} {k : Kind} {id : Nat} {o' : Objs} {es : List (Ev Pair)} (hid : id < 2 ^ 64)
    (h : Calls c (fun _ => none) es o') (hok : ∀ e ∈ es, e.Ok) (hno : ∀ e ∈ es, ¬ e.Sets k id) :
    GetVault c k id o' (.ok none) ∧ ∀ r, GetVault c k id o' r → r = .err ∨ r = .ok none := by
  have hn := calls_other hid h hok hno
  constructor
  · exact Or.inr (by rw [hn]; rfl)
  · rintro r (hr | hr)
    · exact Or.inl hr
    · rw [hn] at hr; exact Or.inr hr

/-! ## Storages that share a key storage -/

/-- The storage is set up with these master keys. -/
def Ready (h : Hpke Pair Pub Rand MK Boxed) (c : Codec Pair) (s : Site) (file : Option Bytes) (o : Objs) (keys : MK) :
    Prop :=
  ∃ f b pair box, file = some f ∧ o (placeOf s.kind s.id) = some b ∧ c.dec b = some pair ∧ h.parse f = some box ∧
    h.unwrap pair box = some keys

/-- Nobody else uses the place of storage `i`. -/
def Alone (sites : Nat → Site) (i : Nat) : Prop :=
  ∀ j, j ≠ i → ¬ ((sites j).id = (sites i).id ∧ SameStore (sites j).kind (sites i).kind)

theorem openSite_other {h : Hpke Pair Pub Rand MK Boxed} {c : Codec Pair} {sites : Nat → Site} {w w' : Shared}
    {i j : Nat} {out : Outcome MK} (hids : ∀ i, (sites i).id < 2 ^ 64) (ha : Alone sites i) (hj : j ≠ i)
    (hs : OpenSite h c sites w j out w') :
    w'.files i = w.files i ∧
      w'.objs (placeOf (sites i).kind (sites i).id) = w.objs (placeOf (sites i).kind (sites i).id) := by
  have hne : placeOf (sites i).kind (sites i).id ≠ placeOf (sites j).kind (sites j).id := by
    intro hp
    exact ha j hj ((C87_places (hids j) (hids i)).1 hp.symm)
  have hji : ¬ i = j := fun e => hj e.symm
  cases hs with
  | crashEarly => exact ⟨rfl, rfl⟩
  | existing _ _ => exact ⟨rfl, rfl⟩
  | setFails _ hset => exact ⟨rfl, setVault_other hset hne⟩
  | crashSetting _ hset => exact ⟨rfl, setVault_other hset hne⟩
  | notReturned _ hset _ _ => exact ⟨rfl, setVault_other hset hne⟩
  | writing _ hset _ _ _ _ => exact ⟨by simp [Shared.write, hji], setVault_other hset hne⟩
  | fresh _ hset _ _ => exact ⟨by simp [Shared.write, hji], setVault_other hset hne⟩

theorem openSite_ready {h : Hpke Pair Pub Rand MK Boxed} {c : Codec Pair} {sites : Nat → Site} {w w' : Shared}
    {i : Nat} {out : Outcome MK} {keys : MK} (hr : Ready h c (sites i) (w.files i) w.objs keys)
    (hs : OpenSite h c sites w i out w') :
    w' = w ∧ (out = .crashed ∨ out = .returned .err ∨ out = .returned (.ok keys)) := by
  obtain ⟨f, b, pair, box, hf, ho, hd, hp, hu⟩ := hr
  cases hs with
  | crashEarly => exact ⟨rfl, Or.inl rfl⟩
  | existing hf' hg =>
    rw [hf] at hf'
    cases hf'
    refine ⟨rfl, Or.inr ?_⟩
    rcases hg with rfl | rfl
    · exact Or.inl (by simp [unsealWith, hp])
    · exact Or.inr (by simp [unsealWith, hp, readVault, ho, hd, hu])
  | setFails hn _ => rw [hf] at hn; cases hn
  | crashSetting hn _ => rw [hf] at hn; cases hn
  | notReturned hn _ _ _ => rw [hf] at hn; cases hn
  | writing hn _ _ _ _ _ => rw [hf] at hn; cases hn
  | fresh hn _ _ _ => rw [hf] at hn; cases hn

theorem openSite_ok_ready {h : Hpke Pair Pub Rand MK Boxed} (hl : LawfulHpke h) {c : Codec Pair} (hc : LawfulCodec c)
    {sites : Nat → Site} {w w' : Shared} {i : Nat} {keys : MK}
    (hs : OpenSite h c sites w i (.returned (.ok keys)) w') : Ready h c (sites i) (w'.files i) w'.objs keys := by
  generalize hout : Outcome.returned (Res.ok keys) = out at hs
  cases hs with
  | crashEarly => cases hout
  | @existing file r hf hg =>
    have hr : unsealWith h file r = .ok keys := (Outcome.returned.inj hout).symm
    unfold unsealWith at hr
    split at hr
    · cases hr
    · next box hb =>
      split at hr
      · next pair =>
        split at hr
        · next ks hu =>
          cases hr
          rcases hg with hg | hg
          · cases hg
          · cases ho : w.objs (placeOf (sites i).kind (sites i).id) with
            | none => rw [ho] at hg; simp [readVault] at hg
            | some b =>
              rw [ho] at hg
              simp only [readVault] at hg
              split at hg
              · next p hp =>
                simp only [Res.ok.injEq, Option.some.injEq] at hg
                subst hg
                exact ⟨file, b, _, box, hf, ho, hp, hb, hu⟩
              · cases hg
        · cases hr
      · cases hr
      · cases hr
  | setFails _ _ => cases hout
  | crashSetting _ _ => cases hout
  | notReturned _ _ _ _ => cases hout
  | writing _ _ _ _ _ hx => rcases hx with hx | hx <;> rw [hx] at hout <;> cases hout
  | @fresh pair q o keys2 rnd hn hset hg hq =>
    cases hout
    obtain ⟨box, h1, h2⟩ := hl.unwrap_wrap pair keys rnd
    refine ⟨_, c.enc pair, pair, box, by simp [Shared.write], ?_, hc.dec_enc pair, h1, h2⟩
    rw [show o = _ from hset]
    exact put_same _ _ _

theorem openSites_ready {h : Hpke Pair Pub Rand MK Boxed} {c : Codec Pair} {sites : Nat → Site} {w w' : Shared}
    {i : Nat} {keys : MK} {es : List (Nat × Outcome MK)} (hids : ∀ i, (sites i).id < 2 ^ 64) (ha : Alone sites i)
    (hr : Ready h c (sites i) (w.files i) w.objs keys) (hs : OpenSites h c sites w es w') :
    Ready h c (sites i) (w'.files i) w'.objs keys ∧
      ∀ out, (i, out) ∈ es → out = .crashed ∨ out = .returned .err ∨ out = .returned (.ok keys) := by
  induction hs with
  | nil => exact ⟨hr, by simp⟩
  | @snoc w₁ w₂ es j out _ ho ih =>
    obtain ⟨h1, h2⟩ := ih
    by_cases hj : j = i
    · subst hj
      obtain ⟨he, hx⟩ := openSite_ready h1 ho
      rw [he]
      refine ⟨h1, ?_⟩
      intro out' hm
      rcases List.mem_append.1 hm with hm | hm
      · exact h2 out' hm
      · simp only [List.mem_singleton, Prod.mk.injEq, true_and] at hm
        rw [hm]; exact hx
    · obtain ⟨e1, e2⟩ := openSite_other hids ha hj ho
      refine ⟨?_, ?_⟩
      · obtain ⟨f, b, pair, box, r1, r2, r3⟩ := h1
        exact ⟨f, b, pair, box, by rw [e1]; exact r1, by rw [e2]; exact r2, r3⟩
      · intro out' hm
        rcases List.mem_append.1 hm with hm | hm
        · exact h2 out' hm
        · simp only [List.mem_singleton, Prod.mk.injEq] at hm
          exact absurd hm.1.symm hj

/-- **C87 (storages that share a key storage)**: any number of storages with different ids, or different folders, keep
their vault keys in one directory or bucket.  Once a storage was opened with certain master keys, each later opening of
it, whatever the others do meanwhile, crash or fail, yields the same keys, or an error of the key storage, or is cut
off: it never panics and never yields other keys; and nothing that was stored is changed by it. -/
theorem C87_shared {h : Hpke Pair Pub Rand MK Boxed} (hl : LawfulHpke h) {c : Codec Pair} (hc : LawfulCodec c)
    {sites : Nat → Site} {w₀ w₁ w₂ : Shared} {i : Nat} {keys : MK} {es : List (Nat × Outcome MK)}
    (hids : ∀ i, (sites i).id < 2 ^ 64) (ha : Alone sites i)
    (hopen : OpenSite h c sites w₀ i (.returned (.ok keys)) w₁) (hs : OpenSites h c sites w₁ es w₂) (out : Outcome MK)
    (hm : (i, out) ∈ es) : out = .crashed ∨ out = .returned .err ∨ out = .returned (.ok keys) :=
  (openSites_ready hids ha (openSite_ok_ready hl hc hopen) hs).2 out hm

/-- **C87 (the key storage answers)**: and if the key storage answers, it is opened. -/
theorem C87_opens_again {h : Hpke Pair Pub Rand MK Boxed} (hl : LawfulHpke h) {c : Codec Pair} (hc : LawfulCodec c)
    {sites : Nat → Site} {w₀ w₁ w₂ : Shared} {i : Nat} {keys : MK} {es : List (Nat × Outcome MK)}
    (hids : ∀ i, (sites i).id < 2 ^ 64) (ha : Alone sites i)
    (hopen : OpenSite h c sites w₀ i (.returned (.ok keys)) w₁) (hs : OpenSites h c sites w₁ es w₂) :
    OpenSite h c sites w₂ i (.returned (.ok keys)) w₂ := by
  obtain ⟨f, b, pair, box, hf, ho, hd, hp, hu⟩ :=
    (openSites_ready hids ha (openSite_ok_ready hl hc hopen) hs).1
  have := OpenSite.existing (h := h) (c := c) (sites := sites) (w := w₂) (i := i) (file := f)
    (r := readVault c (w₂.objs (placeOf (sites i).kind (sites i).id))) hf (Or.inr rfl)
  simpa [unsealWith, hp, readVault, ho, hd, hu] using this

/-- **C87 (a key cut off is replaced)**: while a storage has no `master-keys` file, half of a vault key left by a crash
does not hinder opening it. -/
theorem C87_replaced {h : Hpke Pair Pub Rand MK Boxed} {c : Codec Pair} (hc : LawfulCodec c)
    {sites : Nat → Site} {w : Shared} {i : Nat} (pair : Pair) (keys : MK) (rnd : Rand) (hf : w.files i = none) :
    ∃ w', OpenSite h c sites w i (.returned (.ok keys)) w' := by
  refine ⟨_, .fresh (pair := pair) (q := pair) (rnd := rnd) hf (o := w.objs.put _ (c.enc pair)) rfl (Or.inr ?_) rfl⟩
  rw [put_same]
  simp [readVault, hc.dec_enc]

/-! ## Not so -/

/-- **C87 violated (a key is overwritten without asking)**: a second storage with the same id, new, in the same key
storage, stores its key over that of the first, whether or not there is one.  The first cannot be opened again: for
every law-abiding encryption whose boxes only their own key opens, its opening panics. -/
theorem C87_violated_same_id {h : Hpke Pair Pub Rand MK Boxed} (hl : LawfulHpke h) {c : Codec Pair} (hc : LawfulCodec c)
    {sites : Nat → Site} (hsame : sites 0 = sites 1) (p q : Pair) (hpq : p ≠ q)
    (hopens : ∀ a b keys rnd box, h.parse (h.wrap (h.pub a) keys rnd) = some box → h.unwrap b box ≠ none → a = b)
    (k k' : MK) (rnd : Rand) :
    ∃ w₁ w₂, OpenSite h c sites ⟨fun _ => none, fun _ => none⟩ 0 (.returned (.ok k)) w₁ ∧
      OpenSite h c sites w₁ 1 (.returned (.ok k')) w₂ ∧
      ∀ w₃ out, OpenSite h c sites w₂ 0 out w₃ → out = .crashed ∨ out = .returned .err ∨ out = .returned .panic := by
  have hpl : placeOf (sites 0).kind (sites 0).id = placeOf (sites 1).kind (sites 1).id := by rw [hsame]
  have s1 : OpenSite h c sites ⟨fun _ => none, fun _ => none⟩ 0 (.returned (.ok k)) _ :=
    .fresh (pair := p) (q := p) (rnd := rnd) rfl (o := Objs.put (fun _ => none) _ (c.enc p)) rfl
      (Or.inr (by rw [put_same]; simp [readVault, hc.dec_enc])) rfl
  have s2 : OpenSite h c sites
      (Shared.write ⟨fun _ => none, Objs.put (fun _ => none) (placeOf (sites 0).kind (sites 0).id) (c.enc p)⟩ 0
        (h.wrap (h.pub p) k rnd)) 1 (.returned (.ok k')) _ :=
    .fresh (pair := q) (q := q) (rnd := rnd) (by simp [Shared.write])
      (o := Objs.put (Objs.put (fun _ => none) (placeOf (sites 0).kind (sites 0).id) (c.enc p)) _ (c.enc q)) rfl
      (Or.inr (by rw [put_same]; simp [readVault, hc.dec_enc])) rfl
  refine ⟨_, _, s1, s2, ?_⟩
  intro w₃ out ho
  obtain ⟨box, hb, hu⟩ := hl.unwrap_wrap p k rnd
  cases ho with
  | crashEarly => exact Or.inl rfl
  | @existing file r hf hg =>
    have hfile : file = h.wrap (h.pub p) k rnd := by
      simp only [Shared.write] at hf
      exact (Option.some.inj hf).symm
    subst hfile
    have hnone : h.unwrap q box = none := by
      cases hx : h.unwrap q box with
      | none => rfl
      | some z => exact absurd (hopens p q k rnd box hb (by rw [hx]; simp)) hpq
    right
    rcases hg with rfl | hg
    · left; simp [unsealWith, hb]
    · right
      have ho : (Objs.put (Objs.put (fun _ => none) (placeOf (sites 0).kind (sites 0).id) (c.enc p))
          (placeOf (sites 1).kind (sites 1).id) (c.enc q)) (placeOf (sites 0).kind (sites 0).id) = some (c.enc q) := by
        rw [hpl, put_same]
      simp only [Shared.write, ho, readVault, hc.dec_enc] at hg
      rw [hg]
      simp [unsealWith, hb, hnone]
  | setFails hn _ => simp [Shared.write] at hn
  | crashSetting hn _ => simp [Shared.write] at hn
  | notReturned hn _ _ _ => simp [Shared.write] at hn
  | writing hn _ _ _ _ _ => simp [Shared.write] at hn
  | fresh hn _ _ _ => simp [Shared.write] at hn

/-- **C87 violated (storing is not atomic in the local directory)**: a call that stores a key over another and is cut
off leaves neither: every later request is an error. -/
theorem C87_violated_local_cut {c : Codec Pair} (hc : LawfulCodec c) (id : Nat) (old new : Pair) (o : Objs)
    (hne : c.enc new ≠ []) :
    ∃ o₁ o₂, SetVault c .dir id old .ok o o₁ ∧ SetVault c .dir id new .crashed o₁ o₂ ∧
      ∀ r, GetVault c .dir id o₂ r → r = .err := by
  refine ⟨_, (o.put (placeOf .dir id) (c.enc old)).put (placeOf .dir id) [], rfl,
    Or.inr (Or.inr ⟨rfl, [], List.nil_prefix, rfl⟩), ?_⟩
  intro r hg
  rcases hg with hg | hg
  · exact hg
  · rw [put_same] at hg
    rw [hg]
    simp [readVault, hc.incomplete new [] List.nil_prefix (fun e => hne e.symm)]

/-- **C87 (in S3 it is)**: a call that stores a key in S3 and fails or is cut off leaves the old key or the new. -/
theorem C87_s3_atomic {c : Codec Pair} (hc : LawfulCodec c) {p : Bytes} {id : Nat} {old new : Pair} {o o₁ o₂ : Objs}
    {out : SetOut} (h1 : SetVault c (.s3 p) id old .ok o o₁) (h2 : SetVault c (.s3 p) id new out o₁ o₂)
    {r : Res (Option Pair)} (hg : GetVault c (.s3 p) id o₂ r) :
    r = .err ∨ r = .ok (some old) ∨ r = .ok (some new) := by
  rcases hg with hg | hg
  · exact Or.inl hg
  · right
    have h1' : o₁ = o.put (placeOf (.s3 p) id) (c.enc old) := h1
    have key : o₂ = o₁ ∨ o₂ = o₁.put (placeOf (.s3 p) id) (c.enc new) := by
      cases out with
      | ok => exact Or.inr h2
      | failed => rcases h2 with h2 | h2 | ⟨h2, _⟩ <;> first | exact Or.inl h2 | exact Or.inr h2 | cases h2
      | crashed => rcases h2 with h2 | h2 | ⟨h2, _⟩ <;> first | exact Or.inl h2 | exact Or.inr h2 | cases h2
    rcases key with rfl | rfl
    · left; rw [hg, h1', put_same]; simp [readVault, hc.dec_enc]
    · right; rw [hg, put_same]; simp [readVault, hc.dec_enc]

/-- **C87 violated (`S3VaultKeyStorage::new` outside a runtime)**: it is said to make a runtime if there is none; it
panics, though the default value would have made one. -/
theorem C87_violated_new : s3New none = .panic ∧ s3Default none = .ok none := ⟨rfl, rfl⟩

/-- **C87 violated (the region)**: the region set on the key storage is not used unless an endpoint is set too. -/
theorem C87_violated_region (region other fromEnv : Option Bytes) :
    s3Region none region fromEnv = s3Region none other fromEnv ∧
      ∀ (e r : Bytes), s3Region (some e) (some r) fromEnv = some r :=
  ⟨rfl, fun e r => by simp [s3Region]⟩

/-! ## The hypotheses are met -/

/-- A codec: one byte behind a tag. -/
def exCodec : Codec UInt8 where
  enc p := [0, p]
  dec
    | [0, p] => some p
    | _ => none

theorem exCodec_lawful : LawfulCodec exCodec := by
  constructor
  · intro p; rfl
  · intro p b hb hne
    obtain ⟨t, ht⟩ := hb
    match b, ht, hne with
    | [], _, _ => rfl
    | [x], _, _ => simp [exCodec]
    | x :: y :: z, ht, hne =>
      simp [exCodec] at ht hne
      obtain ⟨rfl, rfl, rfl, rfl⟩ := ht
      simp at hne

/-- Three storages: two in the directory, one in the bucket with the id of the first. -/
def exSites : Nat → Site
  | 0 => ⟨7, .dir⟩
  | 1 => ⟨8, .dir⟩
  | n + 2 => ⟨7, .s3 [n.toUInt8]⟩

example : Alone exSites 0 := by
  intro j hj h
  match j, hj, h with
  | 1, _, h => simp [exSites] at h
  | n + 2, _, h => exact h.2

example : ∃ w₁ w₂, OpenSite exHpke exCodec exSites ⟨fun _ => none, fun _ => none⟩ 0 (.returned (.ok 9)) w₁ ∧
    OpenSites exHpke exCodec exSites w₁ [(1, .crashed), (1, .returned (.ok 5)), (0, .returned (.ok 9))] w₂ := by
  have s1 : OpenSite exHpke exCodec exSites ⟨fun _ => none, fun _ => none⟩ 0 (.returned (.ok 9)) _ :=
    .fresh (pair := 3) (q := 3) (rnd := ()) rfl (o := Objs.put (fun _ => none) _ [0, 3]) rfl
      (Or.inr (by rw [put_same]; rfl)) rfl
  have s2 := OpenSite.crashSetting (h := exHpke) (c := exCodec) (sites := exSites)
    (w := Shared.write ⟨fun _ => none, Objs.put (fun _ => none) (placeOf (exSites 0).kind (exSites 0).id) [0, 3]⟩ 0
      [3, 9]) (i := 1) (pair := 4) (out := .crashed) (by simp [Shared.write])
    (Or.inr (Or.inr ⟨rfl, [0], ⟨[4], rfl⟩, rfl⟩))
  obtain ⟨w3, s3⟩ := C87_replaced (h := exHpke) exCodec_lawful (sites := exSites) (i := 1) 4 5 ()
    (w := ⟨(Shared.write ⟨fun _ => none, Objs.put (fun _ => none) (placeOf (exSites 0).kind (exSites 0).id) [0, 3]⟩ 0
      [3, 9]).files, Objs.put (Shared.write ⟨fun _ => none, Objs.put (fun _ => none)
        (placeOf (exSites 0).kind (exSites 0).id) [0, 3]⟩ 0 [3, 9]).objs (placeOf (exSites 1).kind (exSites 1).id) [0]⟩)
    (by simp [Shared.write])
  have e := (OpenSites.snoc (.snoc .nil s2) s3)
  have hids : ∀ i, (exSites i).id < 2 ^ 64 := by
    intro i
    match i with
    | 0 => simp [exSites]
    | 1 => simp [exSites]
    | n + 2 => simp [exSites]
  have ha : Alone exSites 0 := by
    intro j hj h
    match j, hj, h with
    | 1, _, h => simp [exSites] at h
    | n + 2, _, h => exact h.2
  have s4 := C87_opens_again exHpke_lawful exCodec_lawful hids ha s1 e
  exact ⟨_, _, s1, .snoc e s4⟩

/-- The prefixes `a` and `a/` are one folder, the empty one and `/` are not. -/
example : SamePrefix [97] [97, 47] ∧ ¬ SamePrefix [] [47] := by
  refine ⟨Or.inr (Or.inl ⟨by simp, by simp, rfl⟩), ?_⟩
  rintro (h | h | h) <;> simp at h

/-- `exHpke` opens a box only with its own key, as `C87_violated_same_id` asks. -/
example : ∀ a b keys rnd box, exHpke.parse (exHpke.wrap (exHpke.pub a) keys rnd) = some box →
    exHpke.unwrap b box ≠ none → a = b := by
  intro a b keys rnd box h hu
  simp [exHpke] at h hu
  subst h
  exact hu.symm

end Bonsai.Vault
