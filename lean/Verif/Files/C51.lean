import Verif.Files.Reader
import Verif.Files.C50b

/-!
# C51: reading a file from any position returns its bytes

The reader got the list of blocks of the file when it was created; while it is used, these blocks stay stored
(`Stored`; appends keep this, truncation and deletion do not: see the violations in `C51b.lean`).  Everything
else in the database may change between two operations.
-/
set_option linter.unusedSimpArgs false
set_option linter.unusedSectionVars false

namespace Bonsai.Files
open Bonsai Bonsai.Names Bonsai.Store Bonsai.Query

/-! ## Specification -/

/-- The blocks `ds` are stored, have increasing ids and are not empty. -/
structure Stored (ds : List Document) (m : OMap Document) : Prop where
  present : ∀ d ∈ ds, m.get d.header.id = some d
  sorted : ds.Pairwise fun a b => a.header.id < b.header.id
  nonempty : ∀ d ∈ ds, payload d ≠ []

/-- What a user sees of a reader: answers of reads with a buffer of `n` bytes, positions reported by seeks, blocks
returned by the iterator; the buffer size can be changed and the reader replaced by its clone. -/
inductive Event where
  | read (n : Nat) (b : Bytes)
  | seek (f : SeekFrom) (pos : Nat)
  | next (b : Option Bytes)
  | bufferSize (n : Nat)
  | clone

/-- The position a seek asks for, in a file of `len` bytes at position `p`. -/
def target (len p : Nat) : SeekFrom → Int
  | .start o => o
  | .fromEnd e => len + e
  | .current d => p + d

/-- The behaviour of a reader of the bytes `bs`: a position is all its state. -/
inductive Behaves (bs : Bytes) : Nat → List Event → Nat → Prop
  | nil (p) : Behaves bs p [] p
  | read {p n b es p'} (hb : b <+: bs.drop p) (hn : b.length ≤ n) (he : b = [] → p = bs.length)
      (h : Behaves bs (p + b.length) es p') : Behaves bs p (.read n b :: es) p'
  | seek {p f es p'} {q : Nat} (hq : (q : Int) = max 0 (min (target bs.length p f) bs.length))
      (h : Behaves bs q es p') : Behaves bs p (.seek f q :: es) p'
  | next {p b es p'} (hb : b <+: bs.drop p) (h : Behaves bs (p + b.length) es p') : Behaves bs p (.next (some b) :: es) p'
  | end_ {p es p'} (he : p = bs.length) (h : Behaves bs p es p') : Behaves bs p (.next none :: es) p'
  | bufferSize {p n es p'} (h : Behaves bs p es p') : Behaves bs p (.bufferSize n :: es) p'
  | clone {p es p'} (h : Behaves bs p es p') : Behaves bs p (.clone :: es) p'

/-- What the reader does: operations with buffers that are not empty, the database changing in between as long as
the blocks `ds` stay stored. -/
inductive Session (ds : List Document) : Reader → List Event → Reader → Prop
  | nil (r) : Session ds r [] r
  | read {r m n b r' es r''} (hm : Stored ds m) (hn : 0 < n) (hr : Read m n r (some b) r') (h : Session ds r' es r'') :
      Session ds r (.read n b :: es) r''
  | seek {r f q r' es r''} (hs : r.seek f = some (q, r')) (h : Session ds r' es r'') : Session ds r (.seek f q :: es) r''
  | next {r m b r' es r''} (hm : Stored ds m) (hr : Next m r (some b) r') (h : Session ds r' es r'') :
      Session ds r (.next b :: es) r''
  | bufferSize {r n es r''} (h : Session ds (r.withBufferSize n) es r'') : Session ds r (.bufferSize n :: es) r''
  | clone {r es r''} (h : Session ds r.clone es r'') : Session ds r (.clone :: es) r''

/-! ## The state of a reader -/

/-- The position of a reader whose blocks have the contents `cs`, and what it has loaded. -/
structure Pos (cs : List Bytes) (r : Reader) (p : Nat) : Prop where
  cur : r.cur ≤ cs.length
  off : r.off ≤ ((cs.drop r.cur).headD []).length
  pos : p = (cs.take r.cur).flatten.length + r.off
  loaded : ∃ a k, r.loaded = number a ((cs.drop a).take k)

/-- The reader reads the blocks `ds` and is at position `p`. -/
structure At (ds : List Document) (r : Reader) (p : Nat) : Prop extends Pos (ds.map payload) r p where
  blocks : r.blocks = infosOf ds

theorem infosOf_length (ds : List Document) : (infosOf ds).length = ds.length := by
  have := congrArg List.length (infosOf_headers ds)
  simpa using this

theorem atBlock_eq (r : Reader) : r.atBlock = decide (r.cur < r.blocks.length) := by
  unfold Reader.atBlock
  by_cases h : r.cur < r.blocks.length
  · simp [h]
  · have : (r.cur + 1 == r.blocks.length) = false := by
      rw [beq_eq_false_iff_ne]; omega
    simp [h, this]

theorem flatten_drop_pos {cs : List Bytes} {cur off : Nat} :
    cs.flatten.drop ((cs.take cur).flatten.length + off) = (cs.drop cur).flatten.drop off := by
  have h : cs.flatten = (cs.take cur).flatten ++ (cs.drop cur).flatten := by
    rw [← List.flatten_append, List.take_append_drop]
  rw [h, List.drop_append]
  simp

theorem pos_end {cs : List Bytes} {r : Reader} {p : Nat} (h : Pos cs r p) (hc : ¬ r.cur < cs.length) :
    p = cs.flatten.length := by
  have hc' := h.cur
  have e : r.cur = cs.length := by omega
  have ho := h.off
  rw [e, List.drop_length] at ho
  have hp := h.pos
  rw [e, List.take_length] at hp
  simp at ho
  omega

/-- The result of the inner loop of a read. -/
def ReadSpec (cs : List Bytes) (n cur : Nat) (blocks : List BlockInfo) (p : Nat) : NbRead → Prop
  | .bytes b r' => b ≠ [] ∧ b.length ≤ n ∧ b <+: cs.flatten.drop p ∧ Pos cs r' (p + b.length) ∧ r'.blocks = blocks
  | .need r' => cur ≤ r'.cur ∧ r'.cur < cs.length ∧ Pos cs r' p ∧ r'.blocks = blocks
  | .eof r' => p = cs.flatten.length ∧ Pos cs r' p ∧ r'.blocks = blocks
  | .panic => False

theorem drain_spec {n : Nat} (hn : 0 < n) {cs : List Bytes} {r : Reader} (hl : r.blocks.length = cs.length) :
    ∀ (k cur off : Nat), cur ≤ cs.length → off ≤ ((cs.drop cur).headD []).length →
      ReadSpec cs n (if k = 0 then cur else min (cur + 1) cs.length) r.blocks ((cs.take cur).flatten.length + off)
        (r.drain n (number cur ((cs.drop cur).take k)) off cur)
  | k, cur, off, hc, ho => by
    cases hk : (cs.drop cur).take k with
    | nil =>
      simp only [number, Reader.drain, atBlock_eq, hl, decide_eq_true_eq]
      have hk' : k = 0 ∨ cur = cs.length := by
        rcases List.take_eq_nil_iff.mp hk with h | h
        · exact .inl h
        · rw [List.drop_eq_nil_iff] at h; exact .inr (by omega)
      have hP : Pos cs { r with loaded := [], off := off, cur := cur } ((cs.take cur).flatten.length + off) :=
        ⟨hc, ho, rfl, 0, 0, rfl⟩
      by_cases hlt : cur < cs.length
      · rw [if_pos hlt]
        refine ⟨?_, hlt, hP, rfl⟩
        show _ ≤ cur
        split <;> omega
      · rw [if_neg hlt]
        exact ⟨pos_end hP hlt, hP, rfl⟩
    | cons c l =>
      cases k with
      | zero => simp at hk
      | succ k =>
        cases hd : cs.drop cur with
        | nil => rw [hd] at hk; simp at hk
        | cons c' rest =>
          rw [hd, List.take_succ_cons] at hk
          cases hk
          rw [hd, List.headD_cons] at ho
          have hcur : cur < cs.length := by
            rcases Nat.lt_or_ge cur cs.length with h | h
            · exact h
            · rw [List.drop_eq_nil_of_le h] at hd; cases hd
          have hrest : cs.drop (cur + 1) = rest := by
            rw [← List.drop_drop, hd]; rfl
          have htake : cs.take (cur + 1) = cs.take cur ++ [c] := by
            rw [List.take_add, hd]; rfl
          simp only [number, Reader.drain]
          rw [if_neg (show ¬ k + 1 = 0 by omega), if_neg (show ¬ c.length < off by omega)]
          by_cases hpos : 0 < min n (c.drop off).length
          · rw [if_pos hpos]
            have hm : (List.take (min n (c.drop off).length) (c.drop off)).length = min n (c.drop off).length := by
              rw [List.length_take]; omega
            refine ⟨?_, by rw [hm]; omega, ?_, ⟨hc, ?_, ?_, cur, k + 1, ?_⟩, rfl⟩
            · intro h
              rw [h] at hm
              simp only [List.length_nil] at hm
              omega
            · rw [flatten_drop_pos, hd, List.flatten_cons, List.drop_append_of_le_length (by omega)]
              exact (List.take_prefix _ _).trans (List.prefix_append _ _)
            · show off + _ ≤ ((cs.drop cur).headD []).length
              rw [hd, List.headD_cons]
              simp only [List.length_drop]
              omega
            · show _ = (cs.take cur).flatten.length + (off + _)
              rw [hm]; omega
            · show _ = number cur (List.take (k + 1) (cs.drop cur))
              rw [hd, List.take_succ_cons]; rfl
          · rw [if_neg hpos]
            have hoff : off = c.length := by
              simp only [List.length_drop] at hpos
              omega
            have ih := drain_spec hn (r := r) hl k (cur + 1) 0 (by omega) (by omega)
            rw [hrest] at ih
            have hp : (cs.take (cur + 1)).flatten.length + 0 = (cs.take cur).flatten.length + off := by
              rw [htake, List.flatten_append, List.length_append]
              simp; omega
            rw [hp] at ih
            generalize r.drain n (number (cur + 1) (rest.take k)) 0 (cur + 1) = x at ih
            cases x with
            | bytes b r' => exact ih
            | eof r' => exact ih
            | panic => exact ih
            | need r' =>
              refine ⟨?_, ih.2⟩
              have h1 := ih.1
              split at h1 <;> omega
termination_by k => k

/-- One round of a read. -/
theorem nbRead_spec {n : Nat} (hn : 0 < n) {cs : List Bytes} {r : Reader} {p : Nat} (hl : r.blocks.length = cs.length)
    (h : Pos cs r p) : ReadSpec cs n r.cur r.blocks p (r.nbRead n) := by
  have base : ReadSpec cs n r.cur r.blocks p (if r.atBlock then NbRead.need r else NbRead.eof r) := by
    rw [atBlock_eq, hl]
    by_cases hc : r.cur < cs.length
    · rw [if_pos (by simpa using hc)]; exact ⟨Nat.le_refl _, hc, h, rfl⟩
    · rw [if_neg (by simpa using hc)]; exact ⟨pos_end h hc, h, rfl⟩
  obtain ⟨a, k, hld⟩ := h.loaded
  unfold Reader.nbRead
  cases hlo : r.loaded with
  | nil => exact base
  | cons x l =>
    obtain ⟨i, c⟩ := x
    simp only
    split
    · exact base
    · rename_i hi
      have hi : i = r.cur := Decidable.not_not.mp hi
      have ha : a = r.cur := by
        rw [hlo] at hld
        cases ht : (cs.drop a).take k with
        | nil => rw [ht] at hld; cases hld
        | cons y ys =>
          rw [ht] at hld
          simp only [number, List.cons.injEq, Prod.mk.injEq] at hld
          omega
      have := drain_spec hn (r := r) hl k r.cur r.off h.cur h.off
      rw [← h.pos, ← ha, ← hld, ha, hlo] at this
      generalize r.drain n ((i, c) :: l) r.off r.cur = x at this
      cases x with
      | bytes b r' => exact this
      | eof r' => exact this
      | panic => exact this
      | need r' =>
        refine ⟨?_, this.2⟩
        have h1 := this.1
        split at h1
        · exact h1
        · have := this.2.1
          have := h.cur
          omega

theorem nbRead_loaded {n : Nat} {r : Reader} {k : Nat} {cs : List Bytes} (hk : k ≠ 0) (hc : r.cur < cs.length)
    (h : r.loaded = number r.cur ((cs.drop r.cur).take k)) : r.nbRead n = r.drain n r.loaded r.off r.cur := by
  unfold Reader.nbRead
  cases hd : cs.drop r.cur with
  | nil => rw [List.drop_eq_nil_iff] at hd; omega
  | cons c rest =>
    cases k with
    | zero => exact absurd rfl hk
    | succ k =>
      rw [hd, List.take_succ_cons, number] at h
      rw [h]
      simp

/-! ## Loading -/

theorem sortKeys_of_sorted : ∀ {l : List Bytes}, l.Pairwise (· < ·) → sortKeys l = l := by
  intro l h
  have h1 := sortKeys_sorted l
  have h2 : l.Pairwise (· ≤ ·) := h.imp fun hab => Std.le_of_lt hab
  exact (sortKeys_perm l).eq_of_pairwise (fun a b _ _ h1 h2 => Std.le_antisymm h1 h2) h1 h2

theorem getMultiple_present {m : OMap Document} : ∀ {ds : List Document}, (∀ d ∈ ds, m.get d.header.id = some d) →
    (getMultiple m (ds.map fun d => d.header.id)).map (fun p => payload p.2) = ds.map payload
  | [], _ => rfl
  | d :: ds, h => by
    simp only [getMultiple, List.map_cons, List.filterMap_cons, h d (List.mem_cons_self ..), Option.map_some]
    rw [← getMultiple_present fun x hx => h x (List.mem_cons_of_mem _ hx)]
    rfl

theorem loadDocs_eq {m : OMap Document} {ds : List Document} (h : Stored ds m) (a k : Nat) :
    loadDocs m (((ds.drop a).take k).map fun d => d.header.id) = ((ds.map payload).drop a).take k := by
  have hsub : ((ds.drop a).take k).Sublist ds := (List.take_sublist _ _).trans (List.drop_sublist _ _)
  unfold loadDocs
  rw [sortKeys_of_sorted (by rw [List.pairwise_map]; exact h.sorted.sublist hsub),
    getMultiple_present fun d hd => h.present d (hsub.subset hd), List.map_take, List.map_drop]

theorem nextBlocks_eq {ds : List Document} {r : Reader} (hb : r.blocks = infosOf ds) :
    ∃ k, k ≠ 0 ∧ r.nextBlocks = ((ds.drop r.cur).take k).map fun d => d.header.id := by
  refine ⟨max 1 (fits r.bufSize 0 (r.blocks.drop r.cur)), by omega, ?_⟩
  unfold Reader.nextBlocks
  generalize max 1 (fits r.bufSize 0 (r.blocks.drop r.cur)) = k
  have h := infosOf_headers ds
  have h' : (infosOf ds).map (fun b => b.header.id) = ds.map fun d => d.header.id := by
    have := congrArg (List.map fun h : Header => h.id) h
    simpa [List.map_map, Function.comp_def] using this
  rw [hb, List.map_take, List.map_drop, h', List.map_take, List.map_drop]

theorem load_eq {m : OMap Document} {ds : List Document} {r : Reader} (hs : Stored ds m) (hb : r.blocks = infosOf ds) :
    ∃ k, k ≠ 0 ∧ r.load m = { r with loaded := number r.cur (((ds.map payload).drop r.cur).take k) } := by
  obtain ⟨k, hk, e⟩ := nextBlocks_eq hb
  refine ⟨k, hk, ?_⟩
  unfold Reader.load
  rw [e, loadDocs_eq hs]

theorem At.len {ds : List Document} {r : Reader} {p : Nat} (h : At ds r p) : r.blocks.length = (ds.map payload).length := by
  rw [h.blocks, infosOf_length, List.length_map]

theorem flatten_payload (ds : List Document) : (ds.map payload).flatten = ds.flatMap payload := rfl

/-! ## Reads -/

theorem read_loaded {m : OMap Document} {n : Nat} (hn : 0 < n) {ds : List Document} (hs : Stored ds m) :
    ∀ (fuel : Nat) (r : Reader) (p : Nat), At ds r p → r.cur < ds.length → ds.length - r.cur ≤ fuel →
      ∃ b r', Read m n (r.load m) (some b) r' ∧ b.length ≤ n ∧ b <+: (ds.flatMap payload).drop p ∧
        (b = [] → p = (ds.flatMap payload).length) ∧ At ds r' (p + b.length)
  | 0, r, p, h, hc, hf => by omega
  | fuel + 1, r, p, h, hc, hf => by
    obtain ⟨k, hk, hl⟩ := load_eq hs h.blocks
    have hlen := h.len
    have hc' : r.cur < (ds.map payload).length := by simpa using hc
    rw [hl]
    generalize hr' : ({ r with loaded := number r.cur (((ds.map payload).drop r.cur).take k) } : Reader) = r'
    have e1 : r'.cur = r.cur := by rw [← hr']
    have e2 : r'.off = r.off := by rw [← hr']
    have e3 : r'.blocks = r.blocks := by rw [← hr']
    have e4 : r'.loaded = number r'.cur (((ds.map payload).drop r'.cur).take k) := by rw [e1, ← hr']
    have hnb := nbRead_loaded (n := n) hk (by rw [e1]; exact hc') e4
    have hsp := drain_spec hn (r := r') (cs := ds.map payload) (by rw [e3]; exact hlen) k r'.cur r'.off
      (by rw [e1]; exact h.cur) (by rw [e1, e2]; exact h.off)
    rw [← e4, ← hnb, e1, e2, ← h.pos, e3, if_neg hk] at hsp
    cases hx : r'.nbRead n with
    | bytes b r'' =>
      rw [hx] at hsp
      exact ⟨b, r'', .bytes hx, hsp.2.1, hsp.2.2.1, fun hb => absurd hb hsp.1, hsp.2.2.2.1, by rw [hsp.2.2.2.2, h.blocks]⟩
    | eof r'' =>
      rw [hx] at hsp
      exact ⟨[], r'', .eof hx, by simp, List.nil_prefix, fun _ => hsp.1, hsp.2.1, by rw [hsp.2.2, h.blocks]⟩
    | panic => rw [hx] at hsp; exact hsp.elim
    | need r'' =>
      rw [hx] at hsp
      obtain ⟨h1, h2, h3, h4⟩ := hsp
      have h2' : r''.cur < ds.length := by simpa using h2
      rw [List.length_map] at h1
      obtain ⟨b, r₃, hr, hrest⟩ := read_loaded hn hs fuel r'' p ⟨h3, by rw [h4, h.blocks]⟩ h2' (by omega)
      exact ⟨b, r₃, .load hx hr, hrest⟩

theorem read_det {m : OMap Document} {n : Nat} {r : Reader} {o o' : Option Bytes} {r₁ r₂ : Reader}
    (h : Read m n r o r₁) (h' : Read m n r o' r₂) : o = o' ∧ r₁ = r₂ := by
  induction h generalizing o' r₂ with
  | bytes h => cases h' <;> simp_all
  | eof h => cases h' <;> simp_all
  | load h hr ih =>
    cases h' with
    | bytes h' => rw [h] at h'; cases h'
    | eof h' => rw [h] at h'; cases h'
    | panic h' => rw [h] at h'; cases h'
    | load h' hr' =>
      rw [h] at h'
      cases h'
      exact ih hr'
  | panic h => cases h' <;> simp_all

/-- **C51**: a read with a buffer that is not empty always returns; it returns the bytes at the current position,
at least one unless the position is the end, and moves the position by their number. -/
theorem C51_read (ds : List Document) (m : OMap Document) (hs : Stored ds m) (r : Reader) (p : Nat) (h : At ds r p)
    (n : Nat) (hn : 0 < n) :
    ∃ b r', (∀ o r₁, Read m n r o r₁ ↔ o = some b ∧ r₁ = r') ∧ b.length ≤ n ∧ b <+: (ds.flatMap payload).drop p ∧
      (b = [] → p = (ds.flatMap payload).length) ∧ At ds r' (p + b.length) := by
  have key : ∃ b r', Read m n r (some b) r' ∧ b.length ≤ n ∧ b <+: (ds.flatMap payload).drop p ∧
      (b = [] → p = (ds.flatMap payload).length) ∧ At ds r' (p + b.length) := by
    have hsp := nbRead_spec hn h.len h.toPos
    cases hx : r.nbRead n with
    | bytes b r'' =>
      rw [hx] at hsp
      exact ⟨b, r'', .bytes hx, hsp.2.1, hsp.2.2.1, fun hb => absurd hb hsp.1, hsp.2.2.2.1, by rw [hsp.2.2.2.2, h.blocks]⟩
    | eof r'' =>
      rw [hx] at hsp
      exact ⟨[], r'', .eof hx, by simp, List.nil_prefix, fun _ => hsp.1, hsp.2.1, by rw [hsp.2.2, h.blocks]⟩
    | panic => rw [hx] at hsp; exact hsp.elim
    | need r'' =>
      rw [hx] at hsp
      obtain ⟨h1, h2, h3, h4⟩ := hsp
      obtain ⟨b, r₃, hr, hrest⟩ := read_loaded hn hs _ r'' p ⟨h3, by rw [h4, h.blocks]⟩ (by simpa using h2) (Nat.le_refl _)
      exact ⟨b, r₃, .load hx hr, hrest⟩
  obtain ⟨b, r', hr, hrest⟩ := key
  refine ⟨b, r', fun o r₁ => ⟨fun h' => read_det h' hr, ?_⟩, hrest⟩
  rintro ⟨rfl, rfl⟩
  exact hr

/-! ## The iterator -/

/-- The result of one round of the iterator. -/
def BlockSpec (ds : List Document) (r : Reader) (p : Nat) : NbBlock → Prop
  | .block b r' => r.cur < ds.length ∧ b = (((ds.map payload).drop r.cur).headD []).drop r.off ∧
      r'.cur = r.cur + 1 ∧ r'.off = 0 ∧ At ds r' (p + b.length)
  | .need r' => r.cur < ds.length ∧ r'.cur = r.cur ∧ r'.off = r.off ∧ At ds r' p
  | .eof r' => r.cur = ds.length ∧ r'.cur = ds.length ∧ r'.off = 0 ∧ At ds r' p
  | .panic => False

theorem number_eq_cons {a i : Nat} {cs : List Bytes} {c : Bytes} {l : List (Nat × Bytes)} (h : (i, c) :: l = number a cs) :
    i = a ∧ ∃ rest, cs = c :: rest ∧ l = number (a + 1) rest := by
  cases cs with
  | nil => cases h
  | cons x xs =>
    simp only [number, List.cons.injEq, Prod.mk.injEq] at h
    exact ⟨h.1.1, xs, by rw [h.1.2], h.2⟩

theorem loaded_cons {cs : List Bytes} {a k i : Nat} {c : Bytes} {l : List (Nat × Bytes)}
    (h : (i, c) :: l = number a ((cs.drop a).take k)) :
    i = a ∧ ∃ rest k', k = k' + 1 ∧ cs.drop a = c :: rest ∧ cs.drop (a + 1) = rest ∧ l = number (a + 1) ((cs.drop (a + 1)).take k') := by
  obtain ⟨h1, rest, h2, h3⟩ := number_eq_cons h
  refine ⟨h1, ?_⟩
  cases k with
  | zero => simp at h2
  | succ k =>
    cases hd : cs.drop a with
    | nil => rw [hd] at h2; simp at h2
    | cons x xs =>
      rw [hd, List.take_succ_cons] at h2
      cases h2
      have : cs.drop (a + 1) = xs := by rw [← List.drop_drop, hd]; rfl
      exact ⟨xs, k, rfl, rfl, this, by rw [this]; exact h3⟩

theorem nbBlock_spec {ds : List Document} {r : Reader} {p : Nat} (h : At ds r p) : BlockSpec ds r p r.nbBlock := by
  have hcl : r.cur ≤ ds.length := by simpa using h.cur
  have hlen : r.blocks.length = ds.length := by rw [h.blocks, infosOf_length]
  have base : ∀ l, (∃ a k, l = number a (((ds.map payload).drop a).take k)) →
      BlockSpec ds r p (if ({ r with loaded := l } : Reader).atBlock then .need { r with loaded := l } else .eof { r with loaded := l }) := by
    intro l hl
    have hA : At ds { r with loaded := l } p := ⟨⟨h.cur, h.off, h.pos, hl⟩, h.blocks⟩
    rw [atBlock_eq]
    show BlockSpec ds r p (if decide (r.cur < r.blocks.length) = true then _ else _)
    rw [hlen]
    by_cases hc : r.cur < ds.length
    · rw [if_pos (by simpa using hc)]; exact ⟨hc, rfl, rfl, hA⟩
    · rw [if_neg (by simpa using hc)]
      have e : r.cur = ds.length := by omega
      refine ⟨e, e, ?_, hA⟩
      have ho := h.off
      rw [e, List.drop_eq_nil_of_le (by simp)] at ho
      simpa using ho
  obtain ⟨a, k, hld⟩ := h.loaded
  unfold Reader.nbBlock
  cases hlo : r.loaded with
  | nil =>
    have := base r.loaded ⟨a, k, hld⟩
    exact this
  | cons x l =>
    obtain ⟨i, c⟩ := x
    rw [hlo] at hld
    obtain ⟨hia, rest, k', hk, hda, hdr, hl⟩ := loaded_cons hld
    simp only
    by_cases hi : i = r.cur
    · rw [if_pos hi]
      have ha : a = r.cur := by omega
      rw [ha] at hda hdr hl
      have ho := h.off
      rw [hda, List.headD_cons] at ho
      rw [if_neg (by omega)]
      have hc : r.cur < (ds.map payload).length := by
        rcases Nat.lt_or_ge r.cur (ds.map payload).length with h | h
        · exact h
        · rw [List.drop_eq_nil_of_le h] at hda; cases hda
      refine ⟨by simpa using hc, by rw [hda, List.headD_cons], rfl, rfl, ⟨hc, Nat.zero_le _, ?_, r.cur + 1, k', hl⟩, h.blocks⟩
      show _ = ((ds.map payload).take (r.cur + 1)).flatten.length + 0
      rw [List.take_add, hda, List.flatten_append, List.length_append, h.pos]
      simp; omega
    · rw [if_neg hi]
      exact base l ⟨a + 1, k', hl⟩

theorem load_at {ds : List Document} {m : OMap Document} (hs : Stored ds m) {r : Reader} {p : Nat} (h : At ds r p) :
    At ds (r.load m) p := by
  obtain ⟨k, _, hl⟩ := load_eq hs h.blocks
  rw [hl]
  exact ⟨⟨h.cur, h.off, h.pos, _, _, rfl⟩, h.blocks⟩

theorem next_det {m : OMap Document} {r : Reader} {o o' : Option (Option Bytes)} {r₁ r₂ : Reader}
    (h : Next m r o r₁) (h' : Next m r o' r₂) : o = o' ∧ r₁ = r₂ := by
  induction h generalizing o' r₂ with
  | block h => cases h' <;> simp_all
  | eof h => cases h' <;> simp_all
  | load h hr ih =>
    cases h' with
    | block h' => rw [h] at h'; cases h'
    | eof h' => rw [h] at h'; cases h'
    | panic h' => rw [h] at h'; cases h'
    | load h' hr' =>
      rw [h] at h'
      cases h'
      exact ih hr'
  | panic h => cases h' <;> simp_all

/-- The iterator returns the rest of the current block. -/
theorem next_exact {ds : List Document} {m : OMap Document} (hs : Stored ds m) {r : Reader} {p : Nat} (h : At ds r p) :
    (r.cur < ds.length → ∃ r', Next m r (some (some ((((ds.map payload).drop r.cur).headD []).drop r.off))) r' ∧
      r'.cur = r.cur + 1 ∧ r'.off = 0 ∧ At ds r' (p + ((((ds.map payload).drop r.cur).headD []).drop r.off).length)) ∧
    (r.cur = ds.length → ∃ r', Next m r (some none) r' ∧ r'.cur = ds.length ∧ r'.off = 0 ∧ At ds r' p) := by
  have hsp := nbBlock_spec h
  constructor
  · intro hc
    cases hx : r.nbBlock with
    | block b r' =>
      rw [hx] at hsp
      obtain ⟨-, hb, h1, h2, h3⟩ := hsp
      subst hb
      exact ⟨r', .block hx, h1, h2, h3⟩
    | eof r' => rw [hx] at hsp; have := hsp.1; omega
    | panic => rw [hx] at hsp; exact hsp.elim
    | need r' =>
      rw [hx] at hsp
      obtain ⟨-, h1, h2, h3⟩ := hsp
      obtain ⟨k, hk, hl⟩ := load_eq hs h3.blocks
      cases hd : (ds.map payload).drop r.cur with
      | nil => rw [List.drop_eq_nil_iff, List.length_map] at hd; omega
      | cons c rest =>
        cases k with
        | zero => exact absurd rfl hk
        | succ k =>
          have hsp' := nbBlock_spec (load_at hs h3)
          have hx' : ∃ b r'', (r'.load m).nbBlock = .block b r'' := by
            rw [hl]
            unfold Reader.nbBlock
            simp only [h1, hd, List.take_succ_cons, number, ↓reduceIte]
            rw [if_neg]
            · exact ⟨_, _, rfl⟩
            · have := h.off
              rw [hd, List.headD_cons] at this
              rw [h2]; omega
          obtain ⟨b, r'', hx'⟩ := hx'
          rw [hx'] at hsp'
          obtain ⟨-, hb, e1, e2, e3⟩ := hsp'
          have f1 : (r'.load m).cur = r.cur := h1
          have f2 : (r'.load m).off = r.off := h2
          rw [f1, f2, hd] at hb
          rw [f1] at e1
          subst hb
          exact ⟨r'', .load hx (.block hx'), e1, e2, e3⟩
  · intro hc
    cases hx : r.nbBlock with
    | block b r' => rw [hx] at hsp; have := hsp.1; omega
    | eof r' => rw [hx] at hsp; exact ⟨r', .eof hx, hsp.2.1, hsp.2.2.1, hsp.2.2.2⟩
    | panic => rw [hx] at hsp; exact hsp.elim
    | need r' => rw [hx] at hsp; have := hsp.1; omega

/-- **C51**: the iterator always returns: bytes at the current position, or nothing at the end. -/
theorem C51_next (ds : List Document) (m : OMap Document) (hs : Stored ds m) (r : Reader) (p : Nat) (h : At ds r p) :
    ∃ b r', (∀ o r₁, Next m r o r₁ ↔ o = some b ∧ r₁ = r') ∧
      match b with
      | some b => b <+: (ds.flatMap payload).drop p ∧ At ds r' (p + b.length)
      | none => p = (ds.flatMap payload).length ∧ At ds r' p := by
  have hcl : r.cur ≤ ds.length := by simpa using h.cur
  rcases Nat.lt_or_eq_of_le hcl with hc | hc
  · obtain ⟨r', hr, -, -, hA⟩ := (next_exact hs h).1 hc
    refine ⟨_, r', fun o r₁ => ⟨fun h' => next_det h' hr, ?_⟩, ?_, hA⟩
    · rintro ⟨rfl, rfl⟩; exact hr
    · rw [← flatten_payload, h.pos, flatten_drop_pos]
      cases hd : (ds.map payload).drop r.cur with
      | nil => rw [List.drop_eq_nil_iff, List.length_map] at hd; omega
      | cons c rest =>
        have := h.off
        rw [hd, List.headD_cons] at this
        rw [List.headD_cons, List.flatten_cons, List.drop_append_of_le_length this]
        exact List.prefix_append _ _
  · obtain ⟨r', hr, -, -, hA⟩ := (next_exact hs h).2 hc
    refine ⟨_, r', fun o r₁ => ⟨fun h' => next_det h' hr, ?_⟩, ?_, hA⟩
    · rintro ⟨rfl, rfl⟩; exact hr
    · exact pos_end h.toPos (by simp [hc])

/-- Iterating to the end. -/
inductive Blocks (m : OMap Document) : Reader → List Bytes → Reader → Prop
  | done {r r'} (h : Next m r (some none) r') : Blocks m r [] r'
  | more {r b r' bs r''} (h : Next m r (some (some b)) r') (hb : Blocks m r' bs r'') : Blocks m r (b :: bs) r''

theorem blocks_exact {ds : List Document} {m : OMap Document} (hs : Stored ds m) :
    ∀ (fuel : Nat) (r : Reader) (p : Nat), At ds r p → r.off = 0 → ds.length - r.cur ≤ fuel →
      ∃ r', ∀ bs r₁, Blocks m r bs r₁ ↔ bs = (ds.map payload).drop r.cur ∧ r₁ = r' := by
  intro fuel
  induction fuel with
  | zero =>
    intro r p h ho hf
    have hcl : r.cur ≤ ds.length := by simpa using h.cur
    obtain ⟨r', hr, -⟩ := (next_exact hs h).2 (by omega)
    refine ⟨r', fun bs r₁ => ⟨fun hb => ?_, ?_⟩⟩
    · cases hb with
      | done h' => exact ⟨by rw [List.drop_eq_nil_of_le (by simp; omega)], (next_det h' hr).2⟩
      | more h' _ => have := (next_det h' hr).1; cases this
    · rintro ⟨rfl, rfl⟩
      rw [List.drop_eq_nil_of_le (by simp; omega)]
      exact .done hr
  | succ fuel ih =>
    intro r p h ho hf
    have hcl : r.cur ≤ ds.length := by simpa using h.cur
    rcases Nat.lt_or_eq_of_le hcl with hc | hc
    · obtain ⟨r', hr, h1, h2, h3⟩ := (next_exact hs h).1 hc
      obtain ⟨r'', hrest⟩ := ih r' _ h3 h2 (by omega)
      cases hd : (ds.map payload).drop r.cur with
      | nil => rw [List.drop_eq_nil_iff, List.length_map] at hd; omega
      | cons c rest =>
        rw [hd, List.headD_cons, ho, List.drop_zero] at hr
        have hdr : (ds.map payload).drop r'.cur = rest := by rw [h1, ← List.drop_drop, hd]; rfl
        rw [hdr] at hrest
        refine ⟨r'', fun bs r₁ => ⟨fun hb => ?_, ?_⟩⟩
        · cases hb with
          | done h' => have := (next_det h' hr).1; cases this
          | more h' hb' =>
            obtain ⟨e1, e2⟩ := next_det h' hr
            cases e1
            subst e2
            obtain ⟨e3, e4⟩ := (hrest _ _).mp hb'
            exact ⟨by rw [e3], e4⟩
        · rintro ⟨rfl, rfl⟩
          exact .more hr ((hrest _ _).mpr ⟨rfl, rfl⟩)
    · obtain ⟨r', hr, -⟩ := (next_exact hs h).2 hc
      refine ⟨r', fun bs r₁ => ⟨fun hb => ?_, ?_⟩⟩
      · cases hb with
        | done h' => exact ⟨by rw [List.drop_eq_nil_of_le (by simp; omega)], (next_det h' hr).2⟩
        | more h' _ => have := (next_det h' hr).1; cases this
      · rintro ⟨rfl, rfl⟩
        rw [List.drop_eq_nil_of_le (by simp; omega)]
        exact .done hr

/-! ## Seeking -/

theorem setOffsets_get : ∀ (ds : List Document) (o j : Nat), (setOffsets o (ds.map infoOfDoc))[j]? =
    ds[j]?.map fun d => { infoOfDoc d with offset := o + ((ds.take j).flatMap payload).length }
  | [], _, _ => by simp [setOffsets]
  | d :: ds, o, 0 => by simp [setOffsets]
  | d :: ds, o, j + 1 => by
    simp only [List.map_cons, setOffsets, List.getElem?_cons_succ, setOffsets_get ds, List.take_succ_cons, List.flatMap_cons,
      List.length_append]
    congr 1
    funext x
    simp [infoOfDoc]
    omega

theorem findBlock_spec : ∀ (ds : List Document) (o q i : Nat), o ≤ q →
    match findBlock q i (setOffsets o (ds.map infoOfDoc)) with
    | some (i', b) => ∃ j, i' = i + j ∧ j < ds.length ∧ b.offset = o + ((ds.map payload).take j).flatten.length ∧
        b.length = (((ds.map payload).drop j).headD []).length ∧ b.offset ≤ q ∧ q < b.offset + b.length
    | none => o + (ds.map payload).flatten.length ≤ q
  | [], o, q, i, h => by simpa [findBlock, setOffsets] using h
  | d :: ds, o, q, i, h => by
    simp only [List.map_cons, setOffsets, findBlock]
    by_cases hq : o + (infoOfDoc d).length > q
    · rw [if_pos hq]
      exact ⟨0, rfl, by simp, by simp, by simp [infoOfDoc], h, hq⟩
    · rw [if_neg hq]
      have ih := findBlock_spec ds (o + (infoOfDoc d).length) q (i + 1) (by omega)
      cases hx : findBlock q (i + 1) (setOffsets (o + (infoOfDoc d).length) (ds.map infoOfDoc)) with
      | none =>
        rw [hx] at ih
        simp only [List.flatten_cons, List.length_append]
        have : (infoOfDoc d).length = (payload d).length := rfl
        simp only at ih
        omega
      | some x =>
        obtain ⟨i', b⟩ := x
        rw [hx] at ih
        obtain ⟨j, h1, h2, h3, h4, h5, h6⟩ := ih
        have : (infoOfDoc d).length = (payload d).length := rfl
        refine ⟨j + 1, by omega, by simpa using h2, ?_, ?_, h5, h6⟩
        · rw [h3]; simp [this]; omega
        · rw [h4]; simp

theorem infosOf_last {ds : List Document} (hd : ds ≠ []) : ∃ b, (infosOf ds).getLast? = some b ∧
    b.offset = ((ds.map payload).take (ds.length - 1)).flatten.length ∧
    b.length = (((ds.map payload).drop (ds.length - 1)).headD []).length ∧
    b.offset + b.length = (ds.flatMap payload).length := by
  have hl : 0 < ds.length := List.length_pos_iff.mpr hd
  rw [List.getLast?_eq_getElem?, infosOf_length]
  unfold infosOf
  rw [setOffsets_get, List.getElem?_eq_getElem (by omega)]
  have hdrop : ds.drop (ds.length - 1) = [ds[ds.length - 1]] := by
    rw [List.drop_eq_getElem_cons (by omega), List.drop_eq_nil_of_le (by omega)]
  refine ⟨_, rfl, ?_, ?_, ?_⟩
  · show 0 + _ = _
    rw [Nat.zero_add, ← List.map_take]; rfl
  · show (payload _).length = _
    rw [← List.map_drop, hdrop]; rfl
  · show 0 + _ + (payload _).length = _
    have h : (ds.flatMap payload) = (ds.take (ds.length - 1)).flatMap payload ++ (ds.drop (ds.length - 1)).flatMap payload := by
      rw [← List.flatMap_append, List.take_append_drop]
    rw [h, hdrop]
    simp

theorem At.reader_len {ds : List Document} {r : Reader} {p : Nat} (h : At ds r p) : r.len = (ds.flatMap payload).length := by
  unfold Reader.len
  rw [h.blocks]
  by_cases hd : ds = []
  · subst hd; rfl
  · obtain ⟨b, h1, -, -, h2⟩ := infosOf_last hd
    rw [h1, ← h2]

theorem moveTo_spec {ds : List Document} {r : Reader} {p : Nat} (h : At ds r p) (q : Nat) :
    ∃ r', r.moveTo q = some (min q (ds.flatMap payload).length, r') ∧ At ds r' (min q (ds.flatMap payload).length) := by
  unfold Reader.moveTo
  have hf := findBlock_spec ds 0 q 0 (Nat.zero_le _)
  have hb : r.blocks = setOffsets 0 (ds.map infoOfDoc) := h.blocks
  rw [← hb] at hf
  cases hx : findBlock q 0 r.blocks with
  | some x =>
    obtain ⟨i, b⟩ := x
    rw [hx] at hf
    obtain ⟨j, h1, h2, h3, h4, h5, h6⟩ := hf
    have hi : i = j := by omega
    subst hi
    have hq : q < (ds.flatMap payload).length := by
      have e : (ds.map payload).flatten = ((ds.map payload).take i).flatten ++ ((ds.map payload).drop i).flatten := by
        rw [← List.flatten_append, List.take_append_drop]
      rw [← flatten_payload, e, List.length_append]
      cases hd : (ds.map payload).drop i with
      | nil => rw [hd] at h4; simp at h4; omega
      | cons c rest =>
        rw [hd, List.headD_cons] at h4
        rw [List.flatten_cons, List.length_append]
        omega
    simp only
    rw [if_pos h5, Nat.min_eq_left (by omega)]
    refine ⟨_, rfl, ⟨by simp; omega, ?_, ?_, h.loaded⟩, h.blocks⟩
    · show q - b.offset ≤ _
      show q - b.offset ≤ (((ds.map payload).drop i).headD []).length
      omega
    · show q = ((ds.map payload).take i).flatten.length + (q - b.offset)
      omega
  | none =>
    rw [hx] at hf
    simp only [Nat.zero_add, flatten_payload] at hf
    rw [Nat.min_eq_right hf]
    simp only
    by_cases hd : ds = []
    · subst hd
      have : r.blocks = [] := h.blocks
      rw [this]
      exact ⟨_, rfl, ⟨Nat.zero_le _, Nat.zero_le _, by simp, h.loaded⟩, rfl⟩
    · obtain ⟨b, h1, h2, h3, h4⟩ := infosOf_last hd
      rw [h.blocks, h1]
      simp only
      have hl : 0 < ds.length := List.length_pos_iff.mpr hd
      rw [h4, infosOf_length]
      refine ⟨_, rfl, ⟨?_, ?_, ?_, h.loaded⟩, rfl⟩
      · show ds.length - 1 ≤ _
        simp
      · show b.length ≤ (((ds.map payload).drop (ds.length - 1)).headD []).length
        omega
      · show _ = ((ds.map payload).take (ds.length - 1)).flatten.length + b.length
        omega

theorem At.offset {ds : List Document} {r : Reader} {p : Nat} (h : At ds r p) {b : BlockInfo} (hb : r.blocks[r.cur]? = some b) :
    b.offset + r.off = p := by
  rw [h.blocks] at hb
  unfold infosOf at hb
  rw [setOffsets_get] at hb
  cases hd : ds[r.cur]? with
  | none => rw [hd] at hb; cases hb
  | some d =>
    rw [hd] at hb
    cases hb
    rw [h.pos]
    show 0 + _ + r.off = _
    rw [Nat.zero_add, ← List.map_take]; rfl

/-- **C51**: seeking.  Whenever it returns, the position is the one asked for, clamped to the file, and that is
what it reports.  It returns whenever that position is not negative (and representable), except for relative seeks
of a reader at the end of the file (see `C51_violated_seek_after_end`). -/
theorem C51_seek (ds : List Document) (r : Reader) (p : Nat) (h : At ds r p) (f : SeekFrom) :
    (∀ q r', r.seek f = some (q, r') →
      (q : Int) = max 0 (min (target (ds.flatMap payload).length p f) (ds.flatMap payload).length) ∧ At ds r' q) ∧
    (0 ≤ target (ds.flatMap payload).length p f → target (ds.flatMap payload).length p f < 2 ^ 63 →
      (∀ d, f = .current d → p < (ds.flatMap payload).length) → ∃ q r', r.seek f = some (q, r')) := by
  have hlen := h.reader_len
  cases f with
  | start o =>
    obtain ⟨r', h1, h2⟩ := moveTo_spec h o
    have e : r.seek (.start o) = r.moveTo o := rfl
    rw [e, h1]
    refine ⟨?_, fun _ _ _ => ⟨_, _, rfl⟩⟩
    intro q r'' hq
    cases hq
    exact ⟨by simp only [target]; omega, h2⟩
  | fromEnd e =>
    have e1 : r.seek (.fromEnd e) = (r.seekTo (.fromEnd e)).bind r.moveTo := rfl
    rw [e1]
    simp only [Reader.seekTo, hlen]
    by_cases he : e < 0
    · rw [if_pos he]
      by_cases hle : e.natAbs ≤ (ds.flatMap payload).length
      · rw [if_pos hle, Option.bind_some]
        obtain ⟨r', h1, h2⟩ := moveTo_spec h ((ds.flatMap payload).length - e.natAbs)
        rw [h1]
        refine ⟨?_, fun _ _ _ => ⟨_, _, rfl⟩⟩
        intro q r'' hq
        cases hq
        exact ⟨by simp only [target]; omega, h2⟩
      · rw [if_neg hle]
        refine ⟨fun q r' hq => (by cases hq), fun h0 => ?_⟩
        simp only [target] at h0
        omega
    · rw [if_neg he, Option.bind_some]
      obtain ⟨r', h1, h2⟩ := moveTo_spec h (ds.flatMap payload).length
      rw [h1]
      refine ⟨?_, fun _ _ _ => ⟨_, _, rfl⟩⟩
      intro q r'' hq
      cases hq
      exact ⟨by simp only [target]; omega, h2⟩
  | current d =>
    have e1 : r.seek (.current d) = if r.blocks = [] then some (0, r) else (r.seekTo (.current d)).bind r.moveTo := rfl
    rw [e1]
    by_cases hb : r.blocks = []
    · rw [if_pos hb]
      have hds : ds = [] := by
        have := infosOf_length ds
        rw [← h.blocks, hb] at this
        exact List.length_eq_zero_iff.mp this.symm
      subst hds
      have hp : p = 0 := by
        have h1 := h.pos
        have h2 := h.off
        have h3 := h.cur
        simp at h1 h2
        omega
      refine ⟨?_, fun _ _ _ => ⟨_, _, rfl⟩⟩
      intro q r' hq
      cases hq
      refine ⟨?_, by rw [hp] at h; exact h⟩
      simp only [List.flatMap_nil, List.length_nil]
      omega
    · rw [if_neg hb]
      simp only [Reader.seekTo]
      cases hx : r.blocks[r.cur]? with
      | none =>
        refine ⟨fun q r' hq => (by cases hq), fun _ _ hp => ?_⟩
        have hp := hp d rfl
        rw [List.getElem?_eq_none_iff, h.blocks, infosOf_length] at hx
        have := pos_end h.toPos (by simp; omega)
        rw [flatten_payload] at this
        omega
      | some b =>
        simp only
        rw [h.offset hx]
        by_cases hc : 0 ≤ (p : Int) + d ∧ (p : Int) + d < 2 ^ 63
        · rw [if_pos hc, Option.bind_some]
          obtain ⟨r', h1, h2⟩ := moveTo_spec h ((p : Int) + d).toNat
          rw [h1]
          refine ⟨?_, fun _ _ _ => ⟨_, _, rfl⟩⟩
          intro q r'' hq
          cases hq
          exact ⟨by simp only [target]; omega, h2⟩
        · rw [if_neg hc]
          refine ⟨fun q r' hq => (by cases hq), fun h0 h1 => ?_⟩
          exact absurd ⟨h0, h1⟩ hc

/-! ## Sessions -/

/-- **C51**: whatever sequence of reads, seeks, iterations, buffer sizes and clones, and whatever happens to the
rest of the database in between, the answers are those of a cursor over the bytes. -/
theorem C51_session (ds : List Document) (r r' : Reader) (p : Nat) (es : List Event) (h : At ds r p)
    (hs : Session ds r es r') : ∃ p', Behaves (ds.flatMap payload) p es p' ∧ At ds r' p' := by
  induction hs generalizing p with
  | nil => exact ⟨p, .nil p, h⟩
  | read hm hn hr _ ih =>
    obtain ⟨b, r₁, hu, h1, h2, h3, h4⟩ := C51_read ds _ hm _ p h _ hn
    obtain ⟨e1, e2⟩ := (hu _ _).mp hr
    cases e1
    subst e2
    obtain ⟨p', hb, ha⟩ := ih _ h4
    exact ⟨p', .read h2 h1 h3 hb, ha⟩
  | seek hk _ ih =>
    obtain ⟨hq, hA⟩ := (C51_seek ds _ p h _).1 _ _ hk
    obtain ⟨p', hb, ha⟩ := ih _ hA
    exact ⟨p', .seek hq hb, ha⟩
  | next hm hr _ ih =>
    obtain ⟨b, r₁, hu, h1⟩ := C51_next ds _ hm _ p h
    obtain ⟨e1, e2⟩ := (hu _ _).mp hr
    rw [Option.some.injEq] at e1
    subst e1 e2
    rename_i b _ _ _ _
    cases b with
    | none =>
      obtain ⟨p', hb, ha⟩ := ih _ h1.2
      exact ⟨p', .end_ h1.1 hb, ha⟩
    | some b =>
      obtain ⟨p', hb, ha⟩ := ih _ h1.2
      exact ⟨p', .next h1.1 hb, ha⟩
  | bufferSize _ ih =>
    obtain ⟨p', hb, ha⟩ := ih _ ⟨⟨h.cur, h.off, h.pos, h.loaded⟩, h.blocks⟩
    exact ⟨p', .bufferSize hb, ha⟩
  | clone _ ih =>
    obtain ⟨p', hb, ha⟩ := ih _ ⟨⟨h.cur, h.off, h.pos, 0, 0, rfl⟩, h.blocks⟩
    exact ⟨p', .clone hb, ha⟩

/-- `read_to_end` (std): reads with buffers of any sizes until one returns nothing. -/
inductive ReadToEnd (m : OMap Document) : Reader → Bytes → Reader → Prop
  | done {r n r'} (hn : 0 < n) (h : Read m n r (some []) r') : ReadToEnd m r [] r'
  | more {r n b r' bs r''} (hn : 0 < n) (h : Read m n r (some b) r') (hb : b ≠ []) (hr : ReadToEnd m r' bs r'') :
      ReadToEnd m r (b ++ bs) r''

/-- **C51**: reading to the end (`to_vec`, `into_vec`) ends and returns exactly the remaining bytes. -/
theorem C51_read_to_end (ds : List Document) (m : OMap Document) (hs : Stored ds m) (r : Reader) (p : Nat) (h : At ds r p)
    (bs : Bytes) : (∃ r', ReadToEnd m r bs r') ↔ bs = (ds.flatMap payload).drop p := by
  constructor
  · rintro ⟨r', hr⟩
    induction hr generalizing p with
    | done hn hr =>
      obtain ⟨b, r₁, hu, h1, h2, h3, h4⟩ := C51_read ds _ hs _ p h _ hn
      obtain ⟨e1, -⟩ := (hu _ _).mp hr
      cases e1
      rw [h3 rfl, List.drop_length]
    | more hn hr hb _ ih =>
      obtain ⟨b, r₁, hu, h1, h2, h3, h4⟩ := C51_read ds _ hs _ p h _ hn
      obtain ⟨e1, e2⟩ := (hu _ _).mp hr
      cases e1
      subst e2
      rw [ih _ h4]
      obtain ⟨t, ht⟩ := h2
      rw [← List.drop_drop, ← ht, List.drop_left]
  · rintro rfl
    have key : ∀ (k p : Nat) (r : Reader), At ds r p → (ds.flatMap payload).length - p ≤ k →
        ∃ r', ReadToEnd m r ((ds.flatMap payload).drop p) r' := by
      intro k
      induction k with
      | zero =>
        intro p r h hk
        obtain ⟨b, r₁, hu, h1, h2, h3, h4⟩ := C51_read ds _ hs _ p h 1 (by omega)
        have hd : (ds.flatMap payload).drop p = [] := List.drop_eq_nil_of_le (by omega)
        rw [hd] at h2 ⊢
        have hb := List.prefix_nil.mp h2
        subst hb
        exact ⟨r₁, .done (n := 1) (by omega) ((hu _ _).mpr ⟨rfl, rfl⟩)⟩
      | succ k ih =>
        intro p r h hk
        obtain ⟨b, r₁, hu, h1, h2, h3, h4⟩ := C51_read ds _ hs _ p h 1 (by omega)
        by_cases hb : b = []
        · subst hb
          rw [h3 rfl, List.drop_length]
          exact ⟨r₁, .done (n := 1) (by omega) ((hu _ _).mpr ⟨rfl, rfl⟩)⟩
        · have hbl := List.length_pos_iff.mpr hb
          obtain ⟨r', hr⟩ := ih _ _ h4 (by omega)
          refine ⟨r', ?_⟩
          obtain ⟨t, ht⟩ := h2
          have : (ds.flatMap payload).drop p = b ++ (ds.flatMap payload).drop (p + b.length) := by
            rw [← List.drop_drop, ← ht, List.drop_left]
          rw [this]
          exact .more (n := 1) (by omega) ((hu _ _).mpr ⟨rfl, rfl⟩) hb hr
    exact key _ p r h (Nat.le_refl _)

/-- The blocks of a file are stored. -/
theorem stored_of_wf {cfg : Cfg} {m : OMap Document} (hwf : BlocksWF cfg m) (fid : Nat) : Stored (blocksOf m fid) m where
  present d hd := by
    obtain ⟨-, id, hg⟩ := mem_blocksOf.mp hd
    rw [(hwf id d hg).2.1]
    exact hg
  sorted := blocksOf_sorted hwf fid
  nonempty d hd := by
    obtain ⟨-, id, hg⟩ := mem_blocksOf.mp hd
    exact (hwf id d hg).2.2.2.1

/-- **C51**: opening a file.  The reader is at position 0 of the file's contents, and its length is theirs. -/
theorem C51_open (cfg : Cfg) (k : Codec) (hk : k.Lawful) (es : OMap ViewEntry) (m : OMap Document)
    (hc : Current (byFile cfg k) es m) (hwf : BlocksWF cfg m) (fid : Nat) (hf : fid < 2 ^ 32) :
    ∃ bs, forFile k es fid = some bs ∧ At (blocksOf m fid) (Reader.new cfg bs) 0 ∧ Stored (blocksOf m fid) m ∧
      (blocksOf m fid).flatMap payload = bytesOf m fid ∧ (Reader.new cfg bs).len = (bytesOf m fid).length := by
  refine ⟨_, forFile_eq hk hc hwf hf, ?_⟩
  have hA : At (blocksOf m fid) (Reader.new cfg (infosOf (blocksOf m fid))) 0 :=
    ⟨⟨Nat.zero_le _, Nat.zero_le _, rfl, 0, 0, rfl⟩, rfl⟩
  exact ⟨hA, stored_of_wf hwf fid, rfl, hA.reader_len⟩

/-- **C51**: iterating over a file yields its blocks in order. -/
theorem C51_blocks (cfg : Cfg) (ds : List Document) (m : OMap Document) (hs : Stored ds m) (bs : List Bytes) :
    (∃ r', Blocks m (Reader.new cfg (infosOf ds)) bs r') ↔ bs = ds.map payload := by
  have hA : At ds (Reader.new cfg (infosOf ds)) 0 := ⟨⟨Nat.zero_le _, Nat.zero_le _, rfl, 0, 0, rfl⟩, rfl⟩
  obtain ⟨r', h⟩ := blocks_exact hs _ _ _ hA rfl (Nat.le_refl _)
  constructor
  · rintro ⟨r₁, hb⟩
    exact ((h _ _).mp hb).1
  · rintro rfl
    exact ⟨r', (h _ _).mpr ⟨rfl, rfl⟩⟩

end Bonsai.Files
