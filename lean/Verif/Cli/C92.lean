import Verif.Cli.Password

/-!
# C92: a password read from the terminal is the one that was typed
-/
set_option linter.unusedSimpArgs false
set_option linter.unusedVariables false

namespace Bonsai.Cli

/-! ## Specification: a line that is edited and ended -/

/-- What can be pressed on a line. -/
inductive Press where
  /-- A visible character. -/
  | char (c : Char)
  | backspace
  /-- Ctrl-U. -/
  | clear
  /-- A control character without meaning, for example tab. -/
  | other (b : UInt8)

/-- A visible character: not a control character. -/
def Visible (c : Char) : Prop := 32 ≤ c.toNat ∧ c.toNat ≠ 127

/-- The bytes a terminal sends: UTF-8. -/
def Press.bytes : Press → List UInt8
  | .char c => String.utf8EncodeChar c
  | .backspace => [127]
  | .clear => [21]
  | .other b => [b]

/-- The line after the keys. -/
def edit : List Press → List Char → List Char
  | [], line => line
  | .char c :: rest, line => edit rest (line ++ [c])
  | .backspace :: rest, line => edit rest line.dropLast
  | .clear :: rest, line => edit rest []
  | .other _ :: rest, line => edit rest line

/-- Escape and Ctrl-C. -/
def cancels (b : UInt8) : Prop := b = 27 ∨ b = 3

/-- Enter (either character) and Ctrl-D. -/
def ends (b : UInt8) : Prop := b = 10 ∨ b = 13 ∨ b = 4

/-- Keys of the domain: visible characters, and control characters that neither end nor edit the line. -/
def Press.ok : Press → Prop
  | .char c => Visible c
  | .other b => b < 32 ∧ ¬ cancels b ∧ ¬ ends b ∧ b ≠ 21
  | _ => True

def Press.ascii : Press → Prop
  | .char c => c.toNat < 128
  | _ => True

def typed (ks : List Press) : List UInt8 := (ks.map Press.bytes).flatten

/-! ## Proofs -/

theorem encode_ascii (c : Char) (h : c.toNat < 128) : String.utf8EncodeChar c = [UInt8.ofNat c.toNat] := by
  have h1 : c.val.toNat ≤ 0x7f := by have : c.val.toNat = c.toNat := rfl; omega
  rw [String.utf8EncodeChar_eq_singleton (Char.utf8Size_eq_one_iff.2 (by rw [UInt32.le_iff_toNat_le]; simpa using h1))]
  rfl

theorem byteChar_ofNat (c : Char) (h : c.toNat < 128) : byteChar (UInt8.ofNat c.toNat) = c := by
  unfold byteChar
  rw [UInt8.toNat_ofNat_of_lt' (by simp [UInt8.size]; omega)]
  exact Char.ofNat_toNat c

theorem act_visible (b : UInt8) (h1 : 32 ≤ b.toNat) (h2 : b.toNat ≠ 127) : act b = .push (byteChar b) := by
  have hne : ∀ k : UInt8, k.toNat < 32 ∨ k.toNat = 127 → b ≠ k := by
    rintro k hk rfl; omega
  have e1 := hne 27 (by decide)
  have e2 := hne 3 (by decide)
  have e3 := hne 127 (by decide)
  have e4 := hne 21 (by decide)
  have e5 := hne 10 (by decide)
  have e6 := hne 13 (by decide)
  have e7 := hne 4 (by decide)
  have e8 : ¬ b < 32 := by rw [UInt8.lt_iff_toNat_lt]; simpa using h1
  simp [act, e1, e2, e3, e4, e5, e6, e7, isControl, e8]

theorem act_other (b : UInt8) (h : (Press.other b).ok) : act b = .skip := by
  obtain ⟨h1, h2, h3, h4⟩ := h
  have h5 : b ≠ 127 := by rintro rfl; exact absurd h1 (by decide)
  simp only [cancels, ends] at h2 h3
  simp [act, h2, h3, h4, h5, isControl, h1]

theorem readLoop_visible (bs : List UInt8) (h : ∀ b ∈ bs, 32 ≤ b.toNat ∧ b.toNat ≠ 127) (rest : List UInt8)
    (pw : List Char) : readLoop (bs ++ rest) pw = readLoop rest (pw ++ bs.map byteChar) := by
  induction bs generalizing pw with
  | nil => simp
  | cons b bs ih =>
    obtain ⟨h1, h2⟩ := h b (by simp)
    rw [List.cons_append, readLoop, act_visible b h1 h2]
    simp only
    rw [ih (fun x hx => h x (by simp [hx]))]
    simp

theorem readLoop_end (b : UInt8) (h : ends b) (rest : List UInt8) (pw : List Char) :
    readLoop (b :: rest) pw = (some pw, rest) := by
  rcases h with rfl | rfl | rfl <;> simp [readLoop, act]

theorem readLoop_cancel (b : UInt8) (h : cancels b) (rest : List UInt8) (pw : List Char) :
    readLoop (b :: rest) pw = (none, rest) := by
  rcases h with rfl | rfl <;> simp [readLoop, act]

theorem readLoop_typed (ks : List Press) (h : ∀ k ∈ ks, k.ok ∧ k.ascii) (rest : List UInt8) (pw : List Char) :
    readLoop (typed ks ++ rest) pw = readLoop rest (edit ks pw) := by
  induction ks generalizing pw with
  | nil => rfl
  | cons k ks ih =>
    have ih := ih (fun x hx => h x (by simp [hx]))
    obtain ⟨h1, h2⟩ := h k (by simp)
    have ht : typed (k :: ks) ++ rest = k.bytes ++ (typed ks ++ rest) := by simp [typed]
    rw [ht]
    cases k with
    | char c =>
      simp only [Press.ok, Visible, Press.ascii] at h1 h2
      have hb : (UInt8.ofNat c.toNat).toNat = c.toNat := UInt8.toNat_ofNat_of_lt' (by simp [UInt8.size]; omega)
      simp only [Press.bytes, encode_ascii c h2]
      rw [readLoop_visible _ (by simp [hb]; exact h1), ih]
      simp [edit, byteChar_ofNat c h2]
    | backspace => simp only [Press.bytes, List.singleton_append, readLoop, edit]; simp [act, ih]
    | clear => simp only [Press.bytes, List.singleton_append, readLoop, edit]; simp [act, ih]
    | other b =>
      simp only [Press.bytes, List.singleton_append, readLoop, edit]
      rw [act_other b h1]
      exact ih pw

/-- For any keys with only ASCII characters, ended by Enter or Ctrl-D, the password is the edited line, and what follows
is left for the next prompt; if Escape or Ctrl-C is pressed instead, there is no password.  Missing: other characters. -/
theorem C92_read_partial (ks : List Press) (h : ∀ k ∈ ks, k.ok ∧ k.ascii) (b : UInt8) (rest : List UInt8) :
    (ends b → readLoop (typed ks ++ b :: rest) [] = (some (edit ks []), rest)) ∧
    (cancels b → readLoop (typed ks ++ b :: rest) [] = (none, rest)) := by
  refine ⟨fun hb => ?_, fun hb => ?_⟩
  · rw [readLoop_typed ks h, readLoop_end b hb]
  · rw [readLoop_typed ks h, readLoop_cancel b hb]

theorem utf8_visible (c : Char) (h : Visible c) (b : UInt8) (hb : b ∈ String.utf8EncodeChar c) :
    32 ≤ b.toNat ∧ b.toNat ≠ 127 := by
  rcases Nat.lt_or_ge c.toNat 128 with hc | hc
  · rw [encode_ascii c hc] at hb
    simp only [List.mem_singleton] at hb
    subst hb
    have hb : (UInt8.ofNat c.toNat).toNat = c.toNat := UInt8.toNat_ofNat_of_lt' (by simp [UInt8.size]; omega)
    rw [hb]; exact h
  · have : 128 ≤ b.toNat := by
      have hv : c.val.toNat = c.toNat := rfl
      rw [String.utf8EncodeChar] at hb
      simp only [hv] at hb
      rw [if_neg (by omega)] at hb
      have key : ∀ m : Nat, 128 ≤ m → m < 256 → 128 ≤ (UInt8.ofNat m).toNat := by
        intro m h1 h2
        rw [UInt8.toNat_ofNat_of_lt' (by simpa [UInt8.size] using h2)]
        exact h1
      split at hb
      · simp only [List.mem_cons, List.not_mem_nil, or_false] at hb
        rcases hb with rfl | rfl <;> exact key _ (by omega) (by omega)
      · split at hb
        · simp only [List.mem_cons, List.not_mem_nil, or_false] at hb
          rcases hb with rfl | rfl | rfl <;> exact key _ (by omega) (by omega)
        · simp only [List.mem_cons, List.not_mem_nil, or_false] at hb
          rcases hb with rfl | rfl | rfl | rfl <;> exact key _ (by omega) (by omega)
    exact ⟨by omega, by omega⟩

theorem encode_len (c : Char) : 1 ≤ (String.utf8EncodeChar c).length ∧
    ((String.utf8EncodeChar c).length = 1 → c.toNat < 128) := by
  have hv : c.val.toNat = c.toNat := rfl
  rcases Nat.lt_or_ge c.toNat 128 with hc | hc
  · rw [encode_ascii c hc]; exact ⟨by simp, fun _ => hc⟩
  · rw [String.utf8EncodeChar]
    simp only [hv]
    rw [if_neg (by omega)]
    split
    · simp
    · split <;> simp

theorem encode_text_len (t : List Char) : t.length ≤ ((t.map String.utf8EncodeChar).flatten).length ∧
    (((t.map String.utf8EncodeChar).flatten).length = t.length → ∀ c ∈ t, c.toNat < 128) := by
  induction t with
  | nil => simp
  | cons c t ih =>
    obtain ⟨h1, h2⟩ := encode_len c
    simp only [List.map_cons, List.flatten_cons, List.length_append, List.length_cons]
    refine ⟨by omega, fun h => ?_⟩
    intro x hx
    rcases List.mem_cons.1 hx with rfl | hx
    · exact h2 (by omega)
    · exact ih.2 (by omega) x hx

theorem latin_ascii (t : List Char) (h : ∀ c ∈ t, c.toNat < 128) :
    ((t.map String.utf8EncodeChar).flatten).map byteChar = t := by
  induction t with
  | nil => rfl
  | cons c t ih =>
    have hc := h c (by simp)
    simp [encode_ascii c hc, byteChar_ofNat c hc, ih (fun x hx => h x (by simp [hx]))]

/-- Typing any text and Enter gives exactly this text if and only if all of it is ASCII: every byte of the UTF-8 encoding
becomes a character of its own. -/
theorem C92_text_iff (t : List Char) (h : ∀ c ∈ t, Visible c) (rest : List UInt8) :
    readLoop ((t.map String.utf8EncodeChar).flatten ++ 13 :: rest) [] = (some t, rest) ↔ ∀ c ∈ t, c.toNat < 128 := by
  rw [readLoop_visible _ (by
    intro b hb
    obtain ⟨l, hl, hb⟩ := List.mem_flatten.1 hb
    obtain ⟨c, hc, rfl⟩ := List.mem_map.1 hl
    exact utf8_visible c (h c hc) b hb), readLoop_end 13 (Or.inr (Or.inl rfl))]
  constructor
  · intro he
    simp only [List.nil_append, Prod.mk.injEq, Option.some.injEq, and_true] at he
    have := congrArg List.length he
    rw [List.length_map] at this
    exact (encode_text_len t).2 this
  · intro ha
    rw [List.nil_append, latin_ascii t ha]

/-- **Violation.**  Typing `é` sets the password `Ã©`; the user cannot sign in with `é` through any other client. -/
theorem C92_violated_utf8 : ∃ t : List Char, (∀ c ∈ t, Visible c) ∧
    readPassword true ((t.map String.utf8EncodeChar).flatten ++ 13 :: ((t.map String.utf8EncodeChar).flatten ++ [13])) =
      .ok ['Ã', '©'] ∧ t = ['é'] :=
  ⟨['é'], by simp [Visible], by rfl, rfl⟩

/-- **Violation.**  Backspace removes one byte: after `é` and backspace the line is not empty. -/
theorem C92_violated_backspace : (readLoop (typed [.char 'é', .backspace] ++ [13]) []).1 = some ['Ã'] ∧
    edit [.char 'é', .backspace] [] = [] := by
  decide +kernel

/-- A confirmed password is returned exactly if both lines are ended and equal: for any input. -/
theorem C92_confirm (input : List UInt8) (pw : List Char) :
    readPassword true input = .ok pw ↔
      ∃ rest rest', readLoop input [] = (some pw, rest) ∧ readLoop rest [] = (some pw, rest') := by
  unfold readPassword
  rcases hr : readLoop input [] with ⟨o, rest⟩
  cases o with
  | none => simp
  | some p =>
    rcases hr2 : readLoop rest [] with ⟨o2, rest2⟩
    cases o2 with
    | none =>
      simp only [if_true, hr2]
      constructor
      · intro h; cases h
      · rintro ⟨r, r', h1, h2⟩
        simp only [Prod.mk.injEq, Option.some.injEq] at h1
        rw [← h1.2, hr2] at h2
        cases h2
    | some q =>
      simp only [if_true, hr2]
      by_cases hpq : p = q
      · subst hpq
        simp only [ne_eq, not_true, if_false, Except.ok.injEq]
        constructor
        · rintro rfl; exact ⟨rest, rest2, rfl, hr2⟩
        · rintro ⟨r, r', h1, h2⟩
          simp only [Prod.mk.injEq, Option.some.injEq] at h1
          exact h1.1
      · simp only [ne_eq, hpq, not_false_iff, if_true]
        constructor
        · intro h; cases h
        · rintro ⟨r, r', h1, h2⟩
          simp only [Prod.mk.injEq, Option.some.injEq] at h1
          rw [← h1.2, hr2] at h2
          simp only [Prod.mk.injEq, Option.some.injEq] at h2
          exact absurd (h1.1.trans h2.1.symm) hpq

/-- If the password is cancelled or not confirmed nothing is changed, with either command. -/
theorem C92_unchanged (s : Store) (u : String) (input : List UInt8) (e : ReadError)
    (h : readPassword true input = .error e) :
    createCmd s u true input = (s, .noPassword e) ∧ setPasswordCmd s u input = (s, .noPassword e) := by
  simp [createCmd, setPasswordCmd, h]

/-- If a command with a password succeeds, the user has the confirmed password and the other users are unchanged. -/
theorem C92_set (s s' : Store) (u : String) (input : List UInt8) :
    (setPasswordCmd s u input = (s', .ok) → ∃ pw, readPassword true input = .ok pw ∧ (u, some pw) ∈ s'.users ∧
      ∀ v o, v ≠ u → ((v, o) ∈ s'.users ↔ (v, o) ∈ s.users)) ∧
    (createCmd s u true input = (s', .ok) → ∃ pw, readPassword true input = .ok pw ∧ (u, some pw) ∈ s'.users ∧
      ∀ v o, v ≠ u → ((v, o) ∈ s'.users ↔ (v, o) ∈ s.users)) := by
  have key : ∀ (s1 s2 : Store) (pw : List Char), s1.setPassword u pw = some s2 → (u, some pw) ∈ s2.users ∧
      ∀ v o, v ≠ u → ((v, o) ∈ s2.users ↔ (v, o) ∈ s1.users) := by
    intro s1 s2 pw h
    unfold Store.setPassword at h
    split at h
    · cases h
    · next hn =>
      cases h
      refine ⟨?_, ?_⟩
      · have ha : s1.users.any (·.1 == u) = true := by
          refine Classical.byContradiction fun hc => hn (Or.inr hc)
        obtain ⟨x, hx, he⟩ := List.any_eq_true.1 ha
        exact List.mem_map.2 ⟨x, hx, by simp [he]⟩
      · intro v o hv
        simp only [List.mem_map]
        constructor
        · rintro ⟨x, hx, he⟩
          split at he
          · cases he; exact absurd rfl hv
          · rw [← he]; exact hx
        · intro hm
          exact ⟨_, hm, by simp [hv]⟩
  refine ⟨?_, ?_⟩
  · intro h
    unfold setPasswordCmd at h
    cases hr : readPassword true input with
    | error e => simp [hr] at h
    | ok pw =>
      simp only [hr] at h
      cases hs : s.setPassword u pw with
      | none => simp [hs] at h
      | some s2 =>
        simp only [hs, Prod.mk.injEq, and_true] at h
        subst h
        exact ⟨pw, rfl, key _ _ _ hs⟩
  · intro h
    unfold createCmd at h
    cases hr : readPassword true input with
    | error e => simp [hr] at h
    | ok pw =>
      simp only [hr, if_true] at h
      cases hc : s.create u with
      | none => simp [hc] at h
      | some s1 =>
        simp only [hc] at h
        cases hs : s1.setPassword u pw with
        | none => simp [hs] at h
        | some s2 =>
          simp only [hs, Prod.mk.injEq, and_true] at h
          subst h
          obtain ⟨h1, h2⟩ := key _ _ _ hs
          refine ⟨pw, rfl, h1, ?_⟩
          intro v o hv
          rw [h2 v o hv]
          unfold Store.create at hc
          split at hc
          · cases hc
          · cases hc; simp [hv]

/-- **Violation.**  Creating a user with a password is two calls: if the second is refused the command fails, but the user
exists, without a password. -/
theorem C92_violated_half_created : ∃ s s' : Store, ∃ input, createCmd s "ann" true input = (s', .refused) ∧
    s.users = [] ∧ s'.users = [("ann", none)] :=
  ⟨⟨[], false, true⟩, ⟨[("ann", none)], false, true⟩, [104, 105, 13, 104, 105, 13], by decide +kernel, rfl, rfl⟩

example : setPasswordCmd ⟨[("ann", none), ("bob", none)], false, false⟩ "ann" [104, 120, 127, 105, 13, 104, 105, 13] =
    (⟨[("ann", some ['h', 'i']), ("bob", none)], false, false⟩, .ok) := by decide +kernel

example : readPassword true [104, 105, 13, 104, 13] = .error .mismatch := by rfl
example : (∀ k ∈ [Press.char 'h', .char 'x', .backspace, .other 9, .clear, .char 'i'], k.ok ∧ k.ascii) ∧
    edit [Press.char 'h', .char 'x', .backspace, .other 9, .clear, .char 'i'] [] = ['i'] := by
  refine ⟨?_, rfl⟩
  simp [Press.ok, Press.ascii, Visible, cancels, ends]

end Bonsai.Cli
