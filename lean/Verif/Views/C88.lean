import Verif.Views.Emit

/-!
# C88 — a view is given exactly what the map function emits, in order and as often
-/
set_option linter.unusedSimpArgs false

namespace Bonsai.Emit

variable {H K V : Type}

/-! ## Specification -/

/-- What the program says it emits. -/
def Build.says : Build H K V → List (Map H K V)
  | .none => []
  | .emit h k v => [⟨h, k, v⟩]
  | .emitIf c h k v => if c = true then [⟨h, k, v⟩] else []
  | .push b h k v => b.says ++ [⟨h, k, v⟩]
  | .and b c => b.says ++ c.says
  | .extend b items => b.says ++ items
  | .collect items => items
  | .collectTwo b c => b.says ++ c.says
  | .collectMany _ f => (List.ofFn fun i => (f i).says).flatten

/-- The iterator gives these items, one per call, and then nothing, however often it is asked again. -/
inductive Gives : Iter H K V → List (Map H K V) → Prop
  | done {i i' : Iter H K V} : i.next = (Option.none, i') → (∀ n, Iter.take n i' = []) → Gives i []
  | item {i i' : Iter H K V} {m : Map H K V} {ms : List (Map H K V)} : i.next = (some m, i') → Gives i' ms →
      Gives i (m :: ms)

/-! ## Proofs -/

/-- The contents. -/
def items : Mappings H K V → List (Map H K V)
  | .simple o => o.toList
  | .list l => l

theorem items_push (m : Mappings H K V) (x : Map H K V) : items (push m x) = items m ++ [x] := by
  cases m with
  | simple o => cases o <;> rfl
  | list l => rfl

theorem items_extend (m : Mappings H K V) (xs : List (Map H K V)) : items (extend m xs) = items m ++ xs := by
  induction xs generalizing m with
  | nil => simp [extend]
  | cons x xs ih =>
    have : extend m (x :: xs) = extend (push m x) xs := rfl
    rw [this, ih, items_push]
    simp

theorem take_vec (l : List (Map H K V)) (n : Nat) : Iter.take n (.vec l) = l.take n := by
  induction n generalizing l with
  | zero => rfl
  | succ n ih =>
    cases l with
    | nil => rfl
    | cons x l =>
      show x :: Iter.take n (.vec l) = _
      rw [ih]; rfl

theorem take_inline_none (n : Nat) : Iter.take n (.inline (Option.none : Option (Map H K V))) = [] := by
  cases n <;> rfl

theorem drain_eq (m : Mappings H K V) : drain m = items m := by
  cases m with
  | simple o => cases o <;> rfl
  | list l =>
    show Iter.take (l.length + 1) (.vec l) = l
    rw [take_vec]
    exact List.take_of_length_le (by omega)

theorem items_and (m m' : Mappings H K V) : items (and m m') = items m ++ items m' := by
  rw [and, items_extend, drain_eq]

theorem items_collectMappings (ms : List (Mappings H K V)) : items (collectMappings ms) = (ms.map items).flatten := by
  have key : ∀ (rest : List (Mappings H K V)) (c : Mappings H K V),
      items (rest.foldl (fun c m => extend c (drain m)) c) = items c ++ (rest.map items).flatten := by
    intro rest
    induction rest with
    | nil => intro c; simp
    | cons m rest ih =>
      intro c
      rw [List.foldl_cons, ih, items_extend, drain_eq]
      simp [List.append_assoc]
  cases ms with
  | nil => rfl
  | cons m rest => rw [collectMappings, key]; simp

theorem items_run (b : Build H K V) : items b.run = b.says := by
  induction b with
  | none => rfl
  | emit h k v => rfl
  | emitIf c h k v => cases c <;> rfl
  | push b h k v ih => rw [Build.run, Build.says, items_push, ih]
  | and b c ihb ihc => rw [Build.run, Build.says, items_and, ihb, ihc]
  | extend b xs ih => rw [Build.run, Build.says, items_extend, ih]
  | collect xs =>
    rw [Build.run, Build.says, collectMaps, items_extend]
    rfl
  | collectTwo b c ihb ihc =>
    rw [Build.run, Build.says, items_collectMappings]
    simp [ihb, ihc]
  | collectMany n f ih =>
    rw [Build.run, Build.says, items_collectMappings, List.map_ofFn]
    congr 2
    funext i
    exact ih i

theorem gives_items (m : Mappings H K V) : Gives (intoIter m) (items m) := by
  cases m with
  | simple o =>
    cases o with
    | none => exact .done (i' := .inline Option.none) rfl take_inline_none
    | some x => exact .item (i' := .inline Option.none) rfl (.done (i' := .inline Option.none) rfl take_inline_none)
  | list l =>
    show Gives (.vec l) l
    induction l with
    | nil => exact .done (i' := .vec []) rfl (fun n => by rw [take_vec]; simp)
    | cons x l ih => exact .item (i' := .vec l) rfl ih

theorem gives_inj {i : Iter H K V} {a b : List (Map H K V)} (ha : Gives i a) (hb : Gives i b) : a = b := by
  induction ha generalizing b with
  | done h1 _ =>
    cases hb with
    | done _ _ => rfl
    | item h2 _ => rw [h1] at h2; cases h2
  | item h1 _ ih =>
    cases hb with
    | done h2 _ => rw [h1] at h2; cases h2
    | item h2 h3 => rw [h1] at h2; cases h2; rw [ih h3]

/-- **C88 (building)**: however a map function puts its result together, with `emit`, `push`, `and`, `extend` and
`collect`, iterating over it gives exactly what it says it emits: in that order, each as often; `len` is their number
and `is_empty` says whether there are any. -/
theorem C88_built (b : Build H K V) :
    Gives (intoIter b.run) b.says ∧ len b.run = b.says.length ∧ (isEmpty b.run = true ↔ b.says = []) := by
  have hg := gives_items b.run
  rw [items_run] at hg
  have hl : ∀ m : Mappings H K V, len m = (items m).length := by
    intro m
    cases m with
    | simple o => cases o <;> rfl
    | list l => rfl
  have hlen : len b.run = b.says.length := by rw [hl, items_run]
  refine ⟨hg, hlen, ?_⟩
  simp [isEmpty, hlen]

/-- `and` and `collect` are associative and `none` changes nothing, as far as can be seen. -/
theorem C88_and_assoc (a b c : Build H K V) :
    ∃ l, Gives (intoIter ((a.and b).and c).run) l ∧ Gives (intoIter (a.and (b.and c)).run) l ∧
      Gives (intoIter (Build.none.and ((a.and b).and c)).run) l ∧ Gives (intoIter (((a.and b).and c).and .none).run) l := by
  refine ⟨a.says ++ b.says ++ c.says, ?_, ?_, ?_, ?_⟩
  · exact (C88_built ((a.and b).and c)).1
  · have := (C88_built (a.and (b.and c))).1
    simpa [Build.says] using this
  · have := (C88_built (Build.none.and ((a.and b).and c))).1
    simpa [Build.says] using this
  · have := (C88_built (((a.and b).and c).and .none)).1
    simpa [Build.says] using this

/-- **C88 (emitting)**: an emit function gives one entry, with the header of the document, encoded; a header that cannot
be encoded is an error; `emit_if` gives it exactly if the condition holds. -/
theorem C88_emit {H' : Type} (encode : H' → Res H) (h : H') (k : K) (v : V) (c : Bool) :
    (∀ e, encode h = .ok e → ∃ m, emitKeyAndValue encode h k v = .ok m ∧ Gives (intoIter m) [⟨e, k, v⟩]) ∧
    (encode h = .err → emitKeyAndValue encode h k v = .err) ∧
    (∀ e, encode h = .ok e → ∃ m, emitIf encode h c = .ok m ∧
      Gives (intoIter m) (if c = true then [⟨e, (), ()⟩] else [])) := by
  refine ⟨?_, ?_, ?_⟩
  · intro e he
    exact ⟨.simple (some ⟨e, k, v⟩), by simp [emitKeyAndValue, he], gives_items _⟩
  · intro he; simp [emitKeyAndValue, he]
  · intro e he
    cases c with
    | true => exact ⟨.simple (some ⟨e, (), ()⟩), by simp [emitIf, emit, emitKeyAndValue, he], gives_items _⟩
    | false => exact ⟨none, by simp [emitIf], gives_items _⟩

theorem collectRes_ok {α β : Type} {f : α → Res β} {as : List α} {bs : List β} :
    collectRes f as = .ok bs ↔ as.length = bs.length ∧ ∀ (i : Nat) (a : α) (b : β), as[i]? = some a → bs[i]? = some b →
      f a = .ok b := by
  induction as generalizing bs with
  | nil =>
    cases bs with
    | nil => simp [collectRes]
    | cons b bs => simp [collectRes]
  | cons a as ih =>
    constructor
    · intro h
      simp only [collectRes] at h
      split at h
      · next b hb =>
        split at h
        · next bs' hbs =>
          cases h
          obtain ⟨h1, h2⟩ := ih.1 hbs
          refine ⟨by simp [h1], ?_⟩
          intro i x y hx hy
          cases i with
          | zero =>
            simp only [List.getElem?_cons_zero, Option.some.injEq] at hx hy
            rw [← hx, ← hy]; exact hb
          | succ i =>
            simp only [List.getElem?_cons_succ] at hx hy
            exact h2 i x y hx hy
        · cases h
        · cases h
      · cases h
      · cases h
    · rintro ⟨h1, h2⟩
      cases bs with
      | nil => simp at h1
      | cons b bs =>
        have hb := h2 0 a b rfl rfl
        have hrest := ih.2 ⟨by simpa using h1, fun i x y hx hy => h2 (i + 1) x y (by simpa using hx) (by simpa using hy)⟩
        simp [collectRes, hb, hrest]

/-- **C88 (what the indexer gets)**: for a map function built in any of these ways, the indexer gets the entries with
their keys and values encoded, in order, each with its own source; or an error if any key or value cannot be encoded:
never some of them only. -/
theorem C88_indexed (key : K → Res Bytes) (value : V → Res Bytes) (b : Build H K V) (out : List (Serialized H)) :
    mapSerialized key value (.ok b.run) = .ok out ↔
      out.length = b.says.length ∧ ∀ (i : Nat) (m : Map H K V) (s : Serialized H), b.says[i]? = some m →
        out[i]? = some s → s.source = m.source ∧ key m.key = .ok s.key ∧ value m.value = .ok s.value := by
  have hd : (intoIter b.run).take (len b.run + 1) = b.says := by
    have := drain_eq b.run
    rw [drain, items_run] at this
    exact this
  have hser : ∀ (m : Map H K V) (s : Serialized H), serialize key value m = .ok s ↔
      s.source = m.source ∧ key m.key = .ok s.key ∧ value m.value = .ok s.value := by
    intro m s
    unfold serialize
    cases hk : key m.key with
    | ok k =>
      cases hv : value m.value with
      | ok v =>
        simp only [Res.ok.injEq]
        constructor
        · rintro rfl; exact ⟨rfl, rfl, rfl⟩
        · rintro ⟨h1, h2, h3⟩
          cases s
          simp_all
      | err => simp
      | panic => simp
    | err => simp
    | panic => simp
  simp only [mapSerialized, hd, collectRes_ok, hser]
  constructor
  · rintro ⟨h1, h2⟩; exact ⟨h1.symm, h2⟩
  · rintro ⟨h1, h2⟩; exact ⟨h1.symm, h2⟩

/-- **C88 (errors)**: an error or a panic of the map function is one of the call. -/
theorem C88_error (key : K → Res Bytes) (value : V → Res Bytes) :
    mapSerialized (H := H) key value .err = .err ∧ mapSerialized (H := H) key value .panic = .panic := ⟨rfl, rfl⟩

/-! ## A case -/

/-- Three entries, two of them equal. -/
def exBuild : Build Nat Nat Unit :=
  .and (.push (.emit 1 10 ()) 1 20 ()) (.collectMany 3 fun i => .emitIf (i.val == 2) 1 10 ())

example : exBuild.says = [⟨1, 10, ()⟩, ⟨1, 20, ()⟩, ⟨1, 10, ()⟩] := by decide
example : exBuild.run = .list [⟨1, 10, ()⟩, ⟨1, 20, ()⟩, ⟨1, 10, ()⟩] := by decide
example : mapSerialized (fun k => .ok [k.toUInt8]) (fun _ => .ok []) (.ok exBuild.run) =
    .ok [⟨1, [10], []⟩, ⟨1, [20], []⟩, ⟨1, [10], []⟩] := by decide

end Bonsai.Emit
