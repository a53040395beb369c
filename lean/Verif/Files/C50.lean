import Verif.Files.Model

/-!
# C50: file contents
-/
set_option linter.unusedSimpArgs false
set_option linter.unusedSectionVars false

namespace Bonsai.Files
open Bonsai Bonsai.Names Bonsai.Store Bonsai.Query

/-! ## Chunks and blocks -/

theorem chunks_nil (n : Nat) : chunks n [] = [] := by unfold chunks; simp

theorem chunks_cons {n : Nat} (hn : 0 < n) {l : Bytes} (hl : l ≠ []) :
    chunks n l = l.take n :: chunks n (l.drop n) := by
  conv => lhs; unfold chunks
  rw [if_neg (by simp [hl]; omega)]

theorem chunks_ind {n : Nat} (hn : 0 < n) {P : Bytes → Prop} (h0 : P [])
    (hs : ∀ l, l ≠ [] → P (l.drop n) → P l) (l : Bytes) : P l := by
  generalize hk : l.length = k
  induction k using Nat.strongRecOn generalizing l with
  | ind k ih =>
    by_cases hl : l = []
    · subst hl; exact h0
    · have hp : 0 < l.length := List.length_pos_iff.mpr hl
      exact hs l hl (ih (l.drop n).length (by simp only [List.length_drop]; omega) _ rfl)

theorem chunks_flatten {n : Nat} (hn : 0 < n) (l : Bytes) : (chunks n l).flatten = l := by
  refine chunks_ind hn (P := fun l => (chunks n l).flatten = l) (by rw [chunks_nil]; rfl) ?_ l
  intro l hl ih
  rw [chunks_cons hn hl, List.flatten_cons, ih, List.take_append_drop]

theorem chunks_sizes {n : Nat} (hn : 0 < n) (l : Bytes) : ∀ c ∈ chunks n l, c ≠ [] ∧ c.length ≤ n := by
  refine chunks_ind hn (P := fun l => ∀ c ∈ chunks n l, c ≠ [] ∧ c.length ≤ n) (by rw [chunks_nil]; simp) ?_ l
  intro l hl ih c hc
  rw [chunks_cons hn hl] at hc
  rcases List.mem_cons.mp hc with rfl | hc
  · refine ⟨?_, by simp only [List.length_take]; omega⟩
    intro h
    have : 0 < l.length := List.length_pos_iff.mpr hl
    have := congrArg List.length h
    simp only [List.length_take, List.length_nil] at this
    omega
  · exact ih c hc

theorem blockContents_length (c : Bytes) (fid : Nat) (ts : BitVec 64) :
    (blockContents c fid ts).length = c.length + 12 := by
  simp [blockContents, toBE_length]

/-- The document `append` stores. -/
def newBlock (s : Schema) (id c : Bytes) (fid : Nat) (ts : BitVec 64) : Document :=
  .new s.digest id (blockContents c fid ts)

theorem payload_new (s : Schema) (id c : Bytes) (fid : Nat) (ts : BitVec 64) :
    payload (newBlock s id c fid ts) = c := by
  have h : (newBlock s id c fid ts).contents = blockContents c fid ts := rfl
  unfold payload
  rw [h, blockContents_length]
  simp [blockContents]

theorem owner_new (s : Schema) (id c : Bytes) {fid : Nat} (hf : fid < 2 ^ 32) (ts : BitVec 64) :
    owner (newBlock s id c fid ts) = fid := by
  have h : (newBlock s id c fid ts).contents = blockContents c fid ts := rfl
  unfold owner
  rw [h, blockContents_length]
  simp only [Nat.add_sub_cancel]
  unfold blockContents
  rw [List.append_assoc, List.drop_left, List.take_append_of_le_length (by rw [toBE_length]; omega),
    List.take_of_length_le (by rw [toBE_length]; omega)]
  exact fromBE_toBE (by omega)

theorem stamp_new (s : Schema) (id c : Bytes) (fid : Nat) (ts : BitVec 64) :
    stamp (newBlock s id c fid ts) = ts := by
  have h : (newBlock s id c fid ts).contents = blockContents c fid ts := rfl
  unfold stamp
  rw [h, blockContents_length]
  have h2 : c.length + 12 - 8 = (c ++ toBE 4 fid).length := by simp [toBE_length]
  unfold blockContents
  rw [h2, List.drop_left, fromBE_toBE (by have := ts.isLt; omega)]
  simp

/-! ## Trees -/

theorem insertL_last {V : Type} {k : Bytes} {v : V} : ∀ {l : List (Bytes × V)}, (∀ p ∈ l, p.1 < k) →
    insertL k v l = l ++ [(k, v)]
  | [], _ => rfl
  | p :: l, h => by
    have hp := h p (by simp)
    obtain ⟨a, b⟩ := p
    have hp' : a < k := hp
    simp only [insertL, hp', if_true, List.cons_append]
    rw [insertL_last fun q hq => h q (by simp [hq])]

theorem set_last {V : Type} {m : OMap V} {k : Bytes} {v : V} (h : ∀ x, (m.get x).isSome → x < k) :
    (m.set k v).list = m.list ++ [(k, v)] := by
  show insertL k v m.list = _
  refine insertL_last fun p hp => h p.1 ?_
  rw [OMap.mem_list_iff.mp (show (p.1, p.2) ∈ m.list from hp)]
  rfl

/-- All ids are `u64`s, the largest one is `n` (0 when there are none). -/
def IdsTo (m : OMap Document) (n : Nat) : Prop :=
  n < 2 ^ 64 ∧ (∀ id, (m.get id).isSome → ∃ i ≤ n, id = toBE 8 i) ∧
    ((m.lastKey = none ∧ n = 0) ∨ m.lastKey = some (toBE 8 n))

theorem idsTo_of_wf {cfg : Cfg} {m : OMap Document} (h : BlocksWF cfg m) : ∃ n, IdsTo m n := by
  cases hl : m.lastKey with
  | none =>
    refine ⟨0, by decide, ?_, .inl ⟨hl, rfl⟩⟩
    intro id hid
    rw [OMap.lastKey_none hl] at hid
    cases hid
  | some k =>
    obtain ⟨hk, hmax⟩ := OMap.lastKey_some hl
    have h8 : ∀ id, (m.get id).isSome → id = toBE 8 (fromBE id) ∧ fromBE id < 256 ^ 8 := by
      intro id hid
      obtain ⟨d, hd⟩ := Option.isSome_iff_exists.mp hid
      have h8 := (h id d hd).1
      have := fromBE_lt id
      have h2 := toBE_fromBE id
      rw [h8] at this h2
      exact ⟨h2.symm, this⟩
    obtain ⟨e, hlt⟩ := h8 k hk
    refine ⟨fromBE k, by omega, ?_, .inr (by rw [hl, ← e])⟩
    intro id hid
    obtain ⟨e', hlt'⟩ := h8 id hid
    refine ⟨fromBE id, ?_, e'⟩
    rcases hmax id hid with rfl | hlt2
    · exact Nat.le_refl _
    · rw [e, e', toBE_lt_iff hlt' hlt] at hlt2
      omega

theorem nextId_u64 {s : Schema} {cfg : Cfg} (hs : HasFiles s cfg) {m : OMap Document} {n : Nat} (h : IdsTo m n) :
    s.nextId cfg.blocks m.lastKey = if n + 1 < 2 ^ 64 then some (toBE 8 (n + 1)) else none := by
  rw [hs.blockIds]
  have key : ∀ v : BitVec (8 * 8), v.toNat = n →
      ((uintNext v).bind fun v => ((uintKey 8).enc v).bind fun b => if b.length ≤ 65535 then some b else none) =
        if n + 1 < 2 ^ 64 then some (toBE 8 (n + 1)) else none := by
    intro v hv
    unfold uintNext
    rw [hv]
    by_cases hlt : n + 1 < 2 ^ 64
    · rw [if_pos hlt, if_pos hlt]
      simp only [Option.bind_some, uintKey, primEnc_length]
      rw [if_pos (by omega)]
      simp only [primEnc, BitVec.toNat_ofNat]
      rw [Nat.mod_eq_of_lt hlt]
    · rw [if_neg hlt, if_neg hlt]; rfl
  rcases h.2.2 with ⟨hl, rfl⟩ | hl
  · rw [hl]
    exact key (primFirst 8) (by simp [primFirst])
  · rw [hl]
    have hlt : n < 256 ^ 8 := by have := h.1; omega
    unfold keyNextId
    simp only [uintKey, primDec, toBE_length, if_true, fromBE_toBE hlt, Option.bind_some]
    exact key (BitVec.ofNat (8 * 8) n) (by rw [BitVec.toNat_ofNat, Nat.mod_eq_of_lt h.1])

theorem fresh_u64 {m : OMap Document} {n : Nat} (h : IdsTo m n) (hn : n + 1 < 2 ^ 64) :
    ∀ x, (m.get x).isSome → x < toBE 8 (n + 1) := by
  intro x hx
  obtain ⟨i, hi, rfl⟩ := h.2.1 x hx
  rw [toBE_lt_iff (by omega) (by omega)]
  omega

theorem idsTo_set {m : OMap Document} {n : Nat} (h : IdsTo m n) (hn : n + 1 < 2 ^ 64) (d : Document) :
    IdsTo (m.set (toBE 8 (n + 1)) d) (n + 1) := by
  refine ⟨hn, ?_, .inr ?_⟩
  · intro id hid
    rw [OMap.get_set] at hid
    split at hid
    · rename_i e; exact ⟨n + 1, Nat.le_refl _, e.symm⟩
    · obtain ⟨i, hi, e⟩ := h.2.1 id hid
      exact ⟨i, by omega, e⟩
  · unfold OMap.lastKey
    rw [set_last (fresh_u64 h hn)]
    simp

/-! ## Inserting blocks -/

/-- The documents `append` adds, from the id after `n`. -/
def newBlocks (s : Schema) (fid : Nat) (ts : BitVec 64) : Nat → List Bytes → List (Bytes × Document)
  | _, [] => []
  | n, c :: cs => (toBE 8 (n + 1), newBlock s (toBE 8 (n + 1)) c fid ts) :: newBlocks s fid ts (n + 1) cs

/-- At most the blocks collection has changed. -/
def OnlyBlocks (cfg : Cfg) (ch : Changes) : Prop := ch.collections = [] ∨ ch.collections = [cfg.blocks]

theorem record_blocks {cfg : Cfg} {ch : Changes} (h : OnlyBlocks cfg ch) (id : Bytes) (del : Bool) :
    ∃ ch', recordChange ch (some (cfg.blocks, id, del)) = .ok ch' ∧ OnlyBlocks cfg ch' := by
  rcases h with h | h
  · refine ⟨⟨[cfg.blocks], ch.documents ++ [⟨0, id, del⟩]⟩, ?_, .inr rfl⟩
    simp [recordChange, h]
  · refine ⟨{ ch with documents := ch.documents ++ [⟨0, id, del⟩] }, ?_, .inr h⟩
    have hi : ([cfg.blocks] : List QName).idxOf? cfg.blocks = some 0 := by
      simp [List.idxOf?, List.findIdx?, List.findIdx?.go]
    simp only [recordChange, h, hi]

theorem insert_block {s : Schema} {cfg : Cfg} (hs : HasFiles s cfg) {t : Trees} {n : Nat}
    (h : IdsTo (t.docs cfg.blocks) n) (x : Bytes) :
    (n + 1 < 2 ^ 64 → ∃ hd, execInsert s cfg.blocks t none x =
      .ok ({ t with docs := upd t.docs cfg.blocks ((t.docs cfg.blocks).set (toBE 8 (n + 1))
        (.new s.digest (toBE 8 (n + 1)) x)) }, .updated cfg.blocks hd)) ∧
    (¬ n + 1 < 2 ^ 64 → execInsert s cfg.blocks t none x = .error .push) := by
  have hnx := nextId_u64 hs h
  constructor
  · intro hn
    rw [if_pos hn] at hnx
    have hfree : (t.docs cfg.blocks).get (toBE 8 (n + 1)) = none := by
      cases hg : (t.docs cfg.blocks).get (toBE 8 (n + 1)) with
      | none => rfl
      | some d => exact absurd (fresh_u64 h hn _ (by rw [hg]; rfl)) (bytes_lt_irrefl _)
    refine ⟨(Document.new s.digest (toBE 8 (n + 1)) x).header, ?_⟩
    unfold execInsert
    simp only [Option.orElse, hnx, hfree, storeDoc]
    rw [updateEagerViews_none hs.lazyBlocks]
  · intro hn
    rw [if_neg hn] at hnx
    unfold execInsert
    simp only [Option.orElse, hnx]

theorem run_inserts {s : Schema} {cfg : Cfg} (hs : HasFiles s cfg) (fid : Nat) (ts : BitVec 64) :
    ∀ {cs : List Bytes} {t : Trees} {ch : Changes} {n : Nat}, IdsTo (t.docs cfg.blocks) n → OnlyBlocks cfg ch →
      (n + cs.length < 2 ^ 64 → ∃ t' ch' rs,
        runOps s t ch (cs.map fun c => ⟨cfg.blocks, .insert none (blockContents c fid ts)⟩) = .ok (t', ch', rs) ∧
        (t'.docs cfg.blocks).list = (t.docs cfg.blocks).list ++ newBlocks s fid ts n cs ∧
        (∀ c, c ≠ cfg.blocks → t'.docs c = t.docs c)) ∧
      (¬ n + cs.length < 2 ^ 64 →
        ∃ e, runOps s t ch (cs.map fun c => ⟨cfg.blocks, .insert none (blockContents c fid ts)⟩) = .error e)
  | [], t, ch, n, h, hch => by
    refine ⟨fun _ => ⟨t, ch, [], rfl, by simp [newBlocks], fun _ _ => rfl⟩, fun hn => absurd h.1 hn⟩
  | c :: cs, t, ch, n, h, hch => by
    by_cases hn : n + 1 < 2 ^ 64
    · obtain ⟨hd, hex⟩ := (insert_block hs h (blockContents c fid ts)).1 hn
      obtain ⟨ch', hrec, hch'⟩ := record_blocks hch hd.id false
      generalize ht : ({ t with docs := upd t.docs cfg.blocks ((t.docs cfg.blocks).set (toBE 8 (n + 1))
        (.new s.digest (toBE 8 (n + 1)) (blockContents c fid ts))) } : Trees) = t₁ at hex
      have hb : t₁.docs cfg.blocks = (t.docs cfg.blocks).set (toBE 8 (n + 1))
          (newBlock s (toBE 8 (n + 1)) c fid ts) := by
        rw [← ht]; simp [newBlock]
      have ho : ∀ c, c ≠ cfg.blocks → t₁.docs c = t.docs c := by
        intro c' hc'; rw [← ht]; simp [upd_ne _ _ hc']
      have hids : IdsTo (t₁.docs cfg.blocks) (n + 1) := by rw [hb]; exact idsTo_set h hn _
      have ih := run_inserts hs fid ts (cs := cs) hids hch'
      have step : ∀ ops, runOps s t ch (⟨cfg.blocks, .insert none (blockContents c fid ts)⟩ :: ops) =
          match runOps s t₁ ch' ops with
          | .error e => .error e
          | .ok (t, ch, rs) => .ok (t, ch, .updated cfg.blocks hd :: rs) := by
        intro ops
        simp only [runOps, execOp, hex, changedBy, hrec]
        generalize runOps s t₁ ch' ops = r
        rcases r with e | ⟨a, b, c⟩ <;> rfl
      constructor
      · intro hl
        obtain ⟨t', ch'', rs, hr, h1, h2⟩ := ih.1 (by simp only [List.length_cons] at hl; omega)
        refine ⟨t', ch'', .updated cfg.blocks hd :: rs, ?_, ?_, fun c' hc' => by rw [h2 c' hc', ho c' hc']⟩
        · rw [List.map_cons, step, hr]
        · rw [h1, hb, set_last (fresh_u64 h hn), newBlocks]
          simp
      · intro hl
        obtain ⟨e, he⟩ := ih.2 (by simp only [List.length_cons] at hl; omega)
        exact ⟨e, by rw [List.map_cons, step, he]⟩
    · constructor
      · intro hl; simp only [List.length_cons] at hl; omega
      · intro _
        refine ⟨.push, ?_⟩
        rw [List.map_cons]
        simp only [runOps, execOp, (insert_block hs h (blockContents c fid ts)).2 hn]

theorem runOps_check {s : Schema} {c : QName} {id : Bytes} {t : Trees} {ch : Changes} {ops : List Operation} :
    runOps s t ch (⟨c, .check id none⟩ :: ops) =
      match (t.docs c).get id with
      | none => .error (.notFound c id)
      | some _ =>
        match runOps s t ch ops with
        | .error e => .error e
        | .ok (t, ch, rs) => .ok (t, ch, .success :: rs) := by
  simp only [runOps, execOp, execCheck]
  cases (t.docs c).get id with
  | none => rfl
  | some d =>
    simp only [changedBy, recordChange]
    generalize runOps s t ch ops = r
    rcases r with e | ⟨a, b, c⟩ <;> rfl

theorem invalidateChanged_docs (s : Schema) (ch : Changes) (t : Trees) : (invalidateChanged s ch t).docs = t.docs := rfl

/-- `append` for all inputs: what it returns and stores. -/
theorem append_cases {s : Schema} {cfg : Cfg} (hs : HasFiles s cfg) (hz : 0 < cfg.size) (data : Bytes) (fid : Nat)
    (now : BitVec 64) (tid : Nat) (db : Db) {n : Nat} (h : IdsTo (db.trees.docs cfg.blocks) n) :
    (data = [] ∧ append s cfg data fid now tid db = (.ok (), db)) ∨
    (data ≠ [] ∧ getDoc db cfg.files (toBE 4 fid) = none ∧
      append s cfg data fid now tid db = (.error (.notFound cfg.files (toBE 4 fid)), db)) ∨
    (data ≠ [] ∧ getDoc db cfg.files (toBE 4 fid) ≠ none ∧ ¬ n + (chunks cfg.size data).length < 2 ^ 64 ∧
      ∃ e, append s cfg data fid now tid db = (.error e, db)) ∨
    (data ≠ [] ∧ getDoc db cfg.files (toBE 4 fid) ≠ none ∧ n + (chunks cfg.size data).length < 2 ^ 64 ∧
      ∃ db', append s cfg data fid now tid db = (.ok (), db') ∧
        (db'.trees.docs cfg.blocks).list =
          (db.trees.docs cfg.blocks).list ++ newBlocks s fid now n (chunks cfg.size data) ∧
        ∀ c, c ≠ cfg.blocks → db'.trees.docs c = db.trees.docs c) := by
  by_cases hd : data = []
  · exact .inl ⟨hd, by simp [append, hd]⟩
  have hk : collectionsKnown s (appendOps cfg data fid now) = true := by
    simp [collectionsKnown, appendOps, hs.filesKnown, hs.blocksKnown]
  have hsize : ¬ cfg.size = 0 := by omega
  unfold append
  rw [if_neg hd, if_neg hsize]
  unfold applyToRoots prepare
  rw [if_pos hk]
  unfold appendOps
  rw [runOps_check]
  unfold getDoc
  cases hf : (db.trees.docs cfg.files).get (toBE 4 fid) with
  | none => exact .inr (.inl ⟨hd, rfl, rfl⟩)
  | some fd =>
    have hr := run_inserts hs fid now (cs := chunks cfg.size data) (t := db.trees) (ch := ⟨[], []⟩) h (.inl rfl)
    by_cases hn : n + (chunks cfg.size data).length < 2 ^ 64
    · obtain ⟨t', ch', rs, hrun, h1, h2⟩ := hr.1 hn
      refine .inr (.inr (.inr ⟨hd, by simp, hn, ⟨invalidateChanged s ch' t', db.log ++ [(tid, some ch')]⟩, ?_, h1, h2⟩))
      simp only [hrun]
    · obtain ⟨e, he⟩ := hr.2 hn
      exact .inr (.inr (.inl ⟨hd, by simp, hn, e, by simp only [he]⟩))

theorem blocksOf_append {m m' : OMap Document} {l : List (Bytes × Document)} (h : m'.list = m.list ++ l) (fid : Nat) :
    blocksOf m' fid = blocksOf m fid ++ (l.map (·.2)).filter fun d => owner d == fid := by
  simp [blocksOf, h]

theorem newBlocks_mem {s : Schema} {fid : Nat} {ts : BitVec 64} : ∀ {cs : List Bytes} {n : Nat}
    {p : Bytes × Document}, p ∈ newBlocks s fid ts n cs →
      ∃ i c, n < i ∧ i ≤ n + cs.length ∧ c ∈ cs ∧ p = (toBE 8 i, newBlock s (toBE 8 i) c fid ts)
  | [], _, _, h => by cases h
  | c :: cs, n, p, h => by
    rcases List.mem_cons.mp h with rfl | h
    · exact ⟨n + 1, c, by omega, by simp only [List.length_cons]; omega, by simp, rfl⟩
    · obtain ⟨i, c', h1, h2, h3, h4⟩ := newBlocks_mem h
      exact ⟨i, c', by omega, by simp only [List.length_cons]; omega, by simp [h3], h4⟩

theorem newBlocks_payload {s : Schema} {fid : Nat} {ts : BitVec 64} : ∀ (cs : List Bytes) (n : Nat),
    ((newBlocks s fid ts n cs).map (·.2)).flatMap payload = cs.flatten
  | [], _ => rfl
  | c :: cs, n => by
    simp only [newBlocks, List.map_cons, List.flatMap_cons, payload_new, newBlocks_payload cs (n + 1),
      List.flatten_cons]

theorem newBlocks_payloads {s : Schema} {fid : Nat} {ts : BitVec 64} : ∀ (cs : List Bytes) (n : Nat),
    ((newBlocks s fid ts n cs).map (·.2)).map payload = cs
  | [], _ => rfl
  | c :: cs, n => by simp only [newBlocks, List.map_cons, payload_new, newBlocks_payloads cs (n + 1)]

theorem newBlocks_owner {s : Schema} {fid : Nat} (hf : fid < 2 ^ 32) {ts : BitVec 64} (cs : List Bytes) (n : Nat)
    (g : Nat) : ((newBlocks s fid ts n cs).map (·.2)).filter (fun d => owner d == g) =
      if g = fid then (newBlocks s fid ts n cs).map (·.2) else [] := by
  have hown : ∀ d ∈ (newBlocks s fid ts n cs).map (·.2), owner d = fid := by
    intro d hd
    obtain ⟨p, hp, rfl⟩ := List.mem_map.mp hd
    obtain ⟨i, c, -, -, -, rfl⟩ := newBlocks_mem hp
    exact owner_new s _ _ hf _
  split
  · rename_i e
    rw [List.filter_eq_self]
    intro d hd
    simp [hown d hd, e]
  · rename_i e
    rw [List.filter_eq_nil_iff]
    intro d hd
    simp [hown d hd, Ne.symm e]

theorem wf_append {s : Schema} {cfg : Cfg} (hz : 0 < cfg.size) {m m' : OMap Document} (hwf : BlocksWF cfg m)
    {fid : Nat} {ts : BitVec 64} {n : Nat} {data : Bytes}
    (h : m'.list = m.list ++ newBlocks s fid ts n (chunks cfg.size data)) : BlocksWF cfg m' := by
  intro id d hd
  have hm := OMap.mem_list_iff.mpr hd
  rw [h, List.mem_append] at hm
  rcases hm with hm | hm
  · exact hwf id d (OMap.mem_list_iff.mp hm)
  · obtain ⟨i, c, -, -, hc, e⟩ := newBlocks_mem hm
    cases e
    have hsz := chunks_sizes hz data c hc
    refine ⟨toBE_length _ _, rfl, ?_, by rw [payload_new]; exact hsz.1, by rw [payload_new]; exact hsz.2⟩
    show 12 ≤ (blockContents c fid ts).length
    rw [blockContents_length]; omega

/-- **C50**: appending. -/
theorem C50_append (s : Schema) (cfg : Cfg) (hs : HasFiles s cfg) (hz : 0 < cfg.size) (db db' : Db)
    (hwf : BlocksWF cfg (db.trees.docs cfg.blocks)) (data : Bytes) (fid : Nat) (hf : fid < 2 ^ 32) (now : BitVec 64)
    (tid : Nat) (h : append s cfg data fid now tid db = (.ok (), db')) :
    contents cfg db' fid = contents cfg db fid ++ data ∧
    (∀ g, g ≠ fid → contents cfg db' g = contents cfg db g) ∧
    BlocksWF cfg (db'.trees.docs cfg.blocks) ∧
    ∃ new : List Document, blocksOf (db'.trees.docs cfg.blocks) fid = blocksOf (db.trees.docs cfg.blocks) fid ++ new ∧
      new.map payload = chunks cfg.size data := by
  obtain ⟨n, hn⟩ := idsTo_of_wf hwf
  rcases append_cases hs hz data fid now tid db hn with ⟨hd, he⟩ | ⟨_, _, he⟩ | ⟨_, _, _, e, he⟩ | ⟨_, _, _, d', he, h1, h2⟩
  · rw [he] at h
    cases h
    subst hd
    exact ⟨by simp, fun _ _ => rfl, hwf, [], by simp, by simp [chunks_nil]⟩
  · rw [he] at h; cases h
  · rw [he] at h; cases h
  · rw [he] at h
    cases h
    unfold contents bytesOf
    refine ⟨?_, ?_, wf_append hz hwf h1, (newBlocks s fid now n (chunks cfg.size data)).map (·.2), ?_, ?_⟩
    · rw [blocksOf_append h1, newBlocks_owner hf, if_pos rfl, List.flatMap_append, newBlocks_payload, chunks_flatten hz]
    · intro g hg
      rw [blocksOf_append h1, newBlocks_owner hf, if_neg hg, List.append_nil]
    · rw [blocksOf_append h1, newBlocks_owner hf, if_pos rfl]
    · exact newBlocks_payloads _ _

/-- **C50**: appending succeeds if the file exists (there must be block ids left); if it does not exist or the
append fails for another reason, nothing changes. -/
theorem C50_append_succeeds (s : Schema) (cfg : Cfg) (hs : HasFiles s cfg) (hz : 0 < cfg.size) (db : Db)
    (hwf : BlocksWF cfg (db.trees.docs cfg.blocks)) (data : Bytes) (fid : Nat) (now : BitVec 64) (tid : Nat)
    (hids : ∀ id, getDoc db cfg.blocks id ≠ none → fromBE id + data.length < 2 ^ 64) (hlen : data.length < 2 ^ 64) :
    ((append s cfg data fid now tid db).1 = .ok () ↔ data = [] ∨ getDoc db cfg.files (toBE 4 fid) ≠ none) ∧
    ∀ e, (append s cfg data fid now tid db).1 = .error e → (append s cfg data fid now tid db).2 = db := by
  obtain ⟨n, hn⟩ := idsTo_of_wf hwf
  have hcl : (chunks cfg.size data).length ≤ data.length := by
    have h1 := chunks_flatten hz data
    have h2 := chunks_sizes hz data
    generalize chunks cfg.size data = cs at h1 h2
    subst h1
    clear hids hlen
    induction cs with
    | nil => simp
    | cons c cs ih =>
      have := List.length_pos_iff.mpr (h2 c (by simp)).1
      have := ih fun c hc => h2 c (by simp [hc])
      simp only [List.length_cons, List.flatten_cons, List.length_append]
      omega
  have hbound : n + (chunks cfg.size data).length < 2 ^ 64 := by
    rcases hn.2.2 with ⟨_, rfl⟩ | hl
    · omega
    · have := hids (toBE 8 n) (by
        have := (OMap.lastKey_some hl).1
        unfold getDoc
        intro h; rw [h] at this; cases this)
      rw [fromBE_toBE (by have := hn.1; omega)] at this
      omega
  rcases append_cases hs hz data fid now tid db hn with ⟨hd, he⟩ | ⟨hd, hf, he⟩ | ⟨_, _, hb, e, he⟩ | ⟨hd, hf, _, d', he, h1, h2⟩
  · rw [he]; exact ⟨by simp [hd], by intro e he; cases he⟩
  · rw [he]; exact ⟨by simp [hd, hf], by intro e _; rfl⟩
  · exact absurd hbound hb
  · rw [he]; exact ⟨by simp [hf], by intro e he; cases he⟩

/-! ## Deleting blocks -/

/-- The headers are those of stored documents, each once. -/
def Present (m : OMap Document) (hs : List Header) : Prop :=
  (hs.map (·.id)).Nodup ∧ ∀ h ∈ hs, ∃ d, m.get h.id = some d ∧ d.header = h

theorem run_deletes {s : Schema} {cfg : Cfg} (hs : HasFiles s cfg) :
    ∀ {l : List Header} {t : Trees} {ch : Changes}, Present (t.docs cfg.blocks) l → OnlyBlocks cfg ch →
      ∃ t' ch' rs, runOps s t ch (l.map fun h => ⟨cfg.blocks, .delete h⟩) = .ok (t', ch', rs) ∧
        (t'.docs cfg.blocks).list = (t.docs cfg.blocks).list.filter (fun p => !(l.map (·.id)).contains p.1) ∧
        (∀ c, c ≠ cfg.blocks → t'.docs c = t.docs c)
  | [], t, ch, _, _ => ⟨t, ch, [], rfl, (List.filter_eq_self.mpr (by simp)).symm, fun _ _ => rfl⟩
  | h :: l, t, ch, hp, hch => by
    obtain ⟨d, hd, hh⟩ := hp.2 h (by simp)
    obtain ⟨ch', hrec, hch'⟩ := record_blocks hch h.id true
    generalize ht : ({ t with docs := upd t.docs cfg.blocks ((t.docs cfg.blocks).remove h.id) } : Trees) = t₁
    have hex : execDelete s cfg.blocks t h = .ok (t₁, .deleted cfg.blocks h.id) := by
      unfold execDelete
      simp only [hd, hh, if_true]
      rw [updateEagerViews_none hs.lazyBlocks]
      simp only [ht]
    have hb : t₁.docs cfg.blocks = (t.docs cfg.blocks).remove h.id := by rw [← ht]; simp
    have ho : ∀ c, c ≠ cfg.blocks → t₁.docs c = t.docs c := by
      intro c hc; rw [← ht]; simp [upd_ne _ _ hc]
    have hnd := hp.1
    rw [List.map_cons, List.nodup_cons] at hnd
    have hp' : Present (t₁.docs cfg.blocks) l := by
      refine ⟨hnd.2, fun g hg => ?_⟩
      obtain ⟨d', hd', e⟩ := hp.2 g (by simp [hg])
      refine ⟨d', ?_, e⟩
      rw [hb, OMap.get_remove_ne _ (fun e => hnd.1 (List.mem_map.mpr ⟨g, hg, e.symm⟩))]
      exact hd'
    obtain ⟨t', ch'', rs, hr, h1, h2⟩ := run_deletes hs hp' hch'
    refine ⟨t', ch'', .deleted cfg.blocks h.id :: rs, ?_, ?_, fun c hc => by rw [h2 c hc, ho c hc]⟩
    · simp only [List.map_cons, runOps, execOp, hex, changedBy, hrec, hr]
    · rw [h1, hb]
      show List.filter _ (List.filter _ _) = _
      rw [List.filter_filter]
      congr 1
      funext p
      simp only [List.map_cons, List.contains_cons, Bool.not_or]
      by_cases e : p.1 = h.id <;> simp [e]

theorem apply_deletes {s : Schema} {cfg : Cfg} (hs : HasFiles s cfg) {l : List Header} {db : Db} (tid : Nat)
    (hp : Present (db.trees.docs cfg.blocks) l) :
    ∃ rs db', applyToRoots s db tid (l.map fun h => ⟨cfg.blocks, .delete h⟩) = (.ok rs, db') ∧
      (db'.trees.docs cfg.blocks).list =
        (db.trees.docs cfg.blocks).list.filter (fun p => !(l.map (·.id)).contains p.1) ∧
      ∀ c, c ≠ cfg.blocks → db'.trees.docs c = db.trees.docs c := by
  have hk : collectionsKnown s (l.map fun h => ⟨cfg.blocks, .delete h⟩) = true := by
    simp [collectionsKnown, hs.blocksKnown]
  obtain ⟨t', ch', rs, hr, h1, h2⟩ := run_deletes hs hp (ch := ⟨[], []⟩) (.inl rfl)
  refine ⟨rs, ⟨invalidateChanged s ch' t', db.log ++ [(tid, some ch')]⟩, ?_, h1, h2⟩
  unfold applyToRoots prepare
  rw [if_pos hk]
  simp only [hr]

/-! ## What `for_file` returns -/

/-- What the reader is told about a block, without its offset. -/
def infoOfDoc (d : Document) : BlockInfo := ⟨d.header, 0, (payload d).length, some (stamp d)⟩

/-- The blocks of a file with their offsets in the file. -/
def infosOf (ds : List Document) : List BlockInfo := setOffsets 0 (ds.map infoOfDoc)

/-- Two lists sorted by distinct ids with the same members are equal. -/
theorem sorted_infos_ext : ∀ {l m : List BlockInfo},
    l.Pairwise (fun a b => a.header.id < b.header.id) → m.Pairwise (fun a b => a.header.id < b.header.id) →
    (∀ b, b ∈ l ↔ b ∈ m) → l = m
  | [], [], _, _, _ => rfl
  | [], b :: m, _, _, h => by have := (h b).mpr (by simp); cases this
  | a :: l, [], _, _, h => by have := (h a).mp (by simp); cases this
  | a :: l, b :: m, hl, hm, h => by
    rw [List.pairwise_cons] at hl hm
    have hab : a = b := by
      rcases List.mem_cons.mp ((h a).mp (by simp)) with e | ha
      · exact e
      · rcases List.mem_cons.mp ((h b).mpr (by simp)) with e | hb
        · exact e.symm
        · exact absurd (hm.1 a ha) (bytes_lt_asymm (hl.1 b hb))
    subst hab
    rw [sorted_infos_ext hl.2 hm.2]
    intro x
    constructor
    · intro hx
      rcases List.mem_cons.mp ((h x).mp (by simp [hx])) with rfl | hx'
      · exact absurd (hl.1 x hx) (bytes_lt_irrefl _)
      · exact hx'
    · intro hx
      rcases List.mem_cons.mp ((h x).mpr (by simp [hx])) with rfl | hx'
      · exact absurd (hm.1 x hx) (bytes_lt_irrefl _)
      · exact hx'

theorem mem_insertInfo {b x : BlockInfo} : ∀ {l : List BlockInfo}, x ∈ insertInfo b l ↔ x = b ∨ x ∈ l
  | [] => by simp [insertInfo]
  | y :: l => by
    unfold insertInfo
    split
    · simp
    · simp only [List.mem_cons, mem_insertInfo]
      constructor <;> (rintro (h | h | h) <;> simp [h])

theorem mem_sortInfos {x : BlockInfo} : ∀ {l : List BlockInfo}, x ∈ sortInfos l ↔ x ∈ l
  | [] => by simp [sortInfos]
  | b :: l => by simp only [sortInfos, mem_insertInfo, mem_sortInfos, List.mem_cons]

theorem insertInfo_sorted {b : BlockInfo} : ∀ {l : List BlockInfo},
    l.Pairwise (fun a b => a.header.id < b.header.id) → (∀ x ∈ l, x.header.id ≠ b.header.id) →
    (insertInfo b l).Pairwise fun a b => a.header.id < b.header.id
  | [], _, _ => by simp [insertInfo]
  | y :: l, hs, hne => by
    rw [List.pairwise_cons] at hs
    unfold insertInfo
    have hy := hne y (by simp)
    split
    · rename_i h
      have hlt : b.header.id < y.header.id := by
        rcases h with h | h
        · exact absurd h.symm hy
        · exact h
      rw [List.pairwise_cons, List.pairwise_cons]
      refine ⟨fun x hx => ?_, hs⟩
      rcases List.mem_cons.mp hx with rfl | hx
      · exact hlt
      · exact bytes_lt_trans hlt (hs.1 x hx)
    · rename_i h
      rw [not_or] at h
      have hlt : y.header.id < b.header.id := by
        rcases bytes_trichotomy b.header.id y.header.id with h' | h' | h'
        · exact absurd h' h.2
        · exact absurd h' h.1
        · exact h'
      rw [List.pairwise_cons]
      refine ⟨fun x hx => ?_, insertInfo_sorted hs.2 fun x hx => hne x (by simp [hx])⟩
      rcases mem_insertInfo.mp hx with rfl | hx
      · exact hlt
      · exact hs.1 x hx

theorem sortInfos_sorted : ∀ {l : List BlockInfo}, (l.map fun b => b.header.id).Nodup →
    (sortInfos l).Pairwise fun a b => a.header.id < b.header.id
  | [], _ => by simp [sortInfos]
  | b :: l, h => by
    rw [List.map_cons, List.nodup_cons] at h
    refine insertInfo_sorted (sortInfos_sorted h.2) fun x hx e => h.1 ?_
    exact List.mem_map.mpr ⟨x, mem_sortInfos.mp hx, e⟩

theorem owner_lt (d : Document) : owner d < 256 ^ 4 := by
  have := fromBE_lt ((d.contents.drop (d.contents.length - 12)).take 4)
  unfold owner
  refine Nat.lt_of_lt_of_le this (Nat.pow_le_pow_right (by decide) ?_)
  simp only [List.length_take]; omega

theorem toBE4_inj {a b : Nat} (ha : a < 256 ^ 4) (hb : b < 256 ^ 4) (h : toBE 4 a = toBE 4 b) : a = b := by
  rw [← fromBE_toBE ha, ← fromBE_toBE hb, h]

theorem mem_blocksOf {m : OMap Document} {fid : Nat} {d : Document} :
    d ∈ blocksOf m fid ↔ owner d = fid ∧ ∃ id, m.get id = some d := by
  simp only [blocksOf, List.mem_filter, List.mem_map, beq_iff_eq]
  constructor
  · rintro ⟨⟨⟨id, d'⟩, hm, rfl⟩, h⟩
    exact ⟨h, id, OMap.mem_list_iff.mp hm⟩
  · rintro ⟨h, id, hd⟩
    exact ⟨⟨(id, d), OMap.mem_list_iff.mpr hd, rfl⟩, h⟩

theorem blocksOf_sorted {cfg : Cfg} {m : OMap Document} (hwf : BlocksWF cfg m) (fid : Nat) :
    (blocksOf m fid).Pairwise fun a b => a.header.id < b.header.id := by
  refine List.Pairwise.filter _ ?_
  rw [List.pairwise_map]
  refine List.Pairwise.imp_of_mem ?_ m.sorted
  intro p q hp hq h
  obtain ⟨a, d⟩ := p
  obtain ⟨b, d'⟩ := q
  rw [(hwf a d (OMap.mem_list_iff.mp hp)).2.1, (hwf b d' (OMap.mem_list_iff.mp hq)).2.1]
  exact h

theorem mapM_infoOf {k : Codec} (f : EntryMapping → BlockInfo) (key : Bytes) : ∀ {ms : List EntryMapping},
    (∀ m ∈ ms, infoOf k ⟨m.source, key, m.value⟩ = some (f m)) →
    (ms.map fun m => (⟨m.source, key, m.value⟩ : Mapped)).mapM (infoOf k) = some (ms.map f)
  | [], _ => rfl
  | m :: ms, h => by
    have ih := mapM_infoOf f key (ms := ms) fun x hx => h x (List.mem_cons_of_mem _ hx)
    simp only [List.map_cons, List.mapM_cons, h m (List.mem_cons_self ..), ih]
    rfl

/-- The mappings the view holds for a file. -/
def mappingsAt (es : OMap ViewEntry) (key : Bytes) : List EntryMapping :=
  ((es.get key).map (·.mappings)).getD []

theorem query_matches {v : View} {es : OMap ViewEntry} {m : OMap Document} (h : Current v es m) (key : Bytes) :
    queryByName es (some (.matches_ key)) .ascending none =
      (mappingsAt es key).map fun x => ⟨x.source, key, x.value⟩ := by
  have hv : viewIterator es (some (.matches_ key)) .ascending none = (es.get key).toList := rfl
  unfold queryByName mappingsAt
  rw [hv]
  cases he : es.get key with
  | none => rfl
  | some e =>
    have := (h.1 key e he).1
    simp [this]

theorem mappingsAt_nodup {v : View} {es : OMap ViewEntry} {m : OMap Document} (h : Current v es m) (key : Bytes) :
    ((mappingsAt es key).map fun x => x.source.id).Nodup := by
  unfold mappingsAt
  cases he : es.get key with
  | none => simp
  | some e => exact (h.1 key e he).2.2

theorem find?_of_nodup {l : List EntryMapping} {x : EntryMapping} (h : (l.map fun x => x.source.id).Nodup)
    (hx : x ∈ l) : findId l x.source.id = some x := by
  induction l with
  | nil => cases hx
  | cons y l ih =>
    rw [List.map_cons, List.nodup_cons] at h
    unfold findId
    rw [List.find?_cons]
    rcases List.mem_cons.mp hx with rfl | hx
    · simp
    · have : ¬ y.source.id = x.source.id := fun e => h.1 (List.mem_map.mpr ⟨x, hx, e.symm⟩)
      simp only [this, decide_false]
      exact ih h.2 hx

theorem mem_mappingsAt {v : View} {es : OMap ViewEntry} {m : OMap Document} (h : Current v es m)
    (key : Bytes) (x : EntryMapping) :
    x ∈ mappingsAt es key ↔ ∃ id d, m.get id = some d ∧ expect v (some d) key = some x := by
  have hfound : ∀ id, found es key id = findId (mappingsAt es key) id := by
    intro id
    unfold found mappingsAt
    cases es.get key <;> rfl
  constructor
  · intro hx
    have h1 := find?_of_nodup (mappingsAt_nodup h key) hx
    rw [← hfound, (h.2.2 x.source.id).2 key] at h1
    cases hd : m.get x.source.id with
    | none => rw [hd] at h1; cases h1
    | some d => rw [hd] at h1; exact ⟨_, d, hd, h1⟩
  · rintro ⟨id, d, hd, he⟩
    have h1 := (h.2.2 id).2 key
    rw [hd, he, hfound] at h1
    exact List.mem_of_find?_eq_some h1

theorem expect_byFile {cfg : Cfg} {k : Codec} {d : Document} {fid : Nat} (hf : fid < 256 ^ 4) {x : EntryMapping} :
    expect (byFile cfg k) (some d) (toBE 4 fid) = some x ↔
      owner d = fid ∧ x = ⟨d.header, k.enc ⟨(payload d).length, some (stamp d)⟩⟩ := by
  simp only [expect, byFile, Option.bind_some, lastValue, Option.none_or]
  by_cases h : owner d = fid
  · simp [h, eq_comm]
  · have : toBE 4 (owner d) ≠ toBE 4 fid := fun e => h (toBE4_inj (owner_lt d) hf e)
    simp [h, this]

/-- The block described by a mapping whose value decodes. -/
def infoOfMapping (k : Codec) (x : EntryMapping) : BlockInfo :=
  ⟨x.source, 0, ((k.dec x.value).map (·.length)).getD 0, ((k.dec x.value).bind (·.timestamp))⟩

/-- What an up-to-date view holds for a file. -/
theorem mappings_byFile {cfg : Cfg} {k : Codec} (hk : k.Lawful) {es : OMap ViewEntry} {m : OMap Document}
    (h : Current (byFile cfg k) es m) (hwf : BlocksWF cfg m) {fid : Nat} (hf : fid < 2 ^ 32) :
    (∀ x ∈ mappingsAt es (toBE 4 fid), ∃ i, k.dec x.value = some i ∧
      infoOfMapping k x = ⟨x.source, 0, i.length, i.timestamp⟩) ∧
    sortInfos ((mappingsAt es (toBE 4 fid)).map (infoOfMapping k)) = (blocksOf m fid).map infoOfDoc := by
  have hf' : fid < 256 ^ 4 := by omega
  have hmem : ∀ x, x ∈ mappingsAt es (toBE 4 fid) ↔
      ∃ d ∈ blocksOf m fid, x = ⟨d.header, k.enc ⟨(payload d).length, some (stamp d)⟩⟩ := by
    intro x
    rw [mem_mappingsAt h]
    constructor
    · rintro ⟨id, d, hd, he⟩
      obtain ⟨ho, rfl⟩ := (expect_byFile hf').mp he
      exact ⟨d, mem_blocksOf.mpr ⟨ho, id, hd⟩, rfl⟩
    · rintro ⟨d, hd, rfl⟩
      obtain ⟨ho, id, hd⟩ := mem_blocksOf.mp hd
      exact ⟨id, d, hd, (expect_byFile hf').mpr ⟨ho, rfl⟩⟩
  have hfd : ∀ d : Document, infoOfMapping k ⟨d.header, k.enc ⟨(payload d).length, some (stamp d)⟩⟩ = infoOfDoc d := by
    intro d
    simp [infoOfMapping, hk _, infoOfDoc]
  refine ⟨?_, sorted_infos_ext (sortInfos_sorted ?_) ?_ ?_⟩
  · intro x hx
    obtain ⟨d, -, rfl⟩ := (hmem x).mp hx
    exact ⟨_, hk _, hfd d⟩
  · rw [List.map_map]
    exact mappingsAt_nodup h _
  · rw [List.pairwise_map]
    exact blocksOf_sorted hwf fid
  · intro b
    rw [mem_sortInfos]
    simp only [List.mem_map]
    constructor
    · rintro ⟨x, hx, rfl⟩
      obtain ⟨d, hd, rfl⟩ := (hmem x).mp hx
      exact ⟨d, hd, (hfd d).symm⟩
    · rintro ⟨d, hd, rfl⟩
      exact ⟨_, (hmem _).mpr ⟨d, hd, rfl⟩, hfd d⟩

/-- `for_file` on an up-to-date view returns the blocks of the file in the order of their ids, with their
offsets. -/
theorem forFile_eq {cfg : Cfg} {k : Codec} (hk : k.Lawful) {es : OMap ViewEntry} {m : OMap Document}
    (h : Current (byFile cfg k) es m) (hwf : BlocksWF cfg m) {fid : Nat} (hf : fid < 2 ^ 32) :
    forFile k es fid = some (infosOf (blocksOf m fid)) := by
  obtain ⟨h1, h2⟩ := mappings_byFile hk h hwf hf
  have hinfo : ∀ x ∈ mappingsAt es (toBE 4 fid), infoOf k ⟨x.source, toBE 4 fid, x.value⟩ = some (infoOfMapping k x) := by
    intro x hx
    obtain ⟨i, hi, e⟩ := h1 x hx
    rw [e]
    simp [infoOf, hi]
  unfold forFile
  rw [query_matches h, mapM_infoOf _ _ hinfo]
  simp only [Option.map_some, infosOf, h2]

/-! ## Truncation -/

/-- The sum of the lengths of blocks. -/
def lengths (bs : List BlockInfo) : Nat := (bs.map (·.length)).sum

theorem lengths_append (a b : List BlockInfo) : lengths (a ++ b) = lengths a + lengths b := by
  simp [lengths]

theorem dropBlocks_spec : ∀ (bs : List BlockInfo) (r : Nat), (∀ b ∈ bs, 0 < b.length) →
    ∃ pre post, bs = pre ++ post ∧ dropBlocks r bs = pre.map (·.header) ∧ lengths pre ≤ r ∧
      ∀ b, post.head? = some b → r - lengths pre < b.length
  | [], r, _ => ⟨[], [], rfl, rfl, by simp [lengths], by simp⟩
  | b :: bs, r, hpos => by
    unfold dropBlocks
    by_cases hr : r = 0
    · refine ⟨[], b :: bs, rfl, by simp [hr], by simp [lengths], ?_⟩
      intro x hx
      simp only [List.head?_cons, Option.some.injEq] at hx
      subst hx
      have := hpos b (by simp)
      omega
    · rw [if_neg hr]
      by_cases hb : b.length ≤ r
      · obtain ⟨pre, post, e, h1, h2, h3⟩ := dropBlocks_spec bs (r - b.length) fun x hx => hpos x (by simp [hx])
        refine ⟨b :: pre, post, by simp [e], by simp [hb, h1], ?_, ?_⟩
        · have : lengths (b :: pre) = b.length + lengths pre := by simp [lengths]
          omega
        · intro x hx
          have h4 := h3 x hx
          have : lengths (b :: pre) = b.length + lengths pre := by simp [lengths]
          omega
      · refine ⟨[], b :: bs, rfl, by simp [hb], by simp [lengths], ?_⟩
        intro x hx
        simp only [List.head?_cons, Option.some.injEq] at hx
        subst hx
        simp [lengths]; omega

theorem setOffsets_map {α : Type} (f : BlockInfo → α) (hf : ∀ b o, f { b with offset := o } = f b) :
    ∀ (bs : List BlockInfo) (o : Nat), (setOffsets o bs).map f = bs.map f
  | [], _ => rfl
  | b :: bs, o => by simp only [setOffsets, List.map_cons, hf, setOffsets_map f hf bs]

theorem infosOf_headers (ds : List Document) : (infosOf ds).map (·.header) = ds.map (·.header) := by
  unfold infosOf
  rw [setOffsets_map _ fun _ _ => rfl, List.map_map]
  rfl

theorem infosOf_lengths (ds : List Document) : (infosOf ds).map (·.length) = ds.map fun d => (payload d).length := by
  unfold infosOf
  rw [setOffsets_map _ fun _ _ => rfl, List.map_map]
  rfl

theorem bytes_length (ds : List Document) : (ds.flatMap payload).length = (ds.map fun d => (payload d).length).sum := by
  rw [List.length_flatMap]

theorem infosOf_split {ds : List Document} {a b : List BlockInfo} (h : infosOf ds = a ++ b) :
    ds = ds.take a.length ++ ds.drop a.length ∧ a.map (·.header) = (ds.take a.length).map (·.header) ∧
      b.map (·.header) = (ds.drop a.length).map (·.header) ∧
      lengths a = ((ds.take a.length).flatMap payload).length ∧
      lengths b = ((ds.drop a.length).flatMap payload).length ∧
      b.map (·.length) = (ds.drop a.length).map fun d => (payload d).length := by
  have hh := infosOf_headers ds
  have hl := infosOf_lengths ds
  rw [h, List.map_append] at hh hl
  have e1 : a.map (·.header) = (ds.take a.length).map (·.header) := by
    have := congrArg (List.take a.length) hh
    rwa [List.take_left' (by simp), ← List.map_take] at this
  have e2 : b.map (·.header) = (ds.drop a.length).map (·.header) := by
    have := congrArg (List.drop a.length) hh
    rwa [List.drop_left' (by simp), ← List.map_drop] at this
  have e3 : a.map (·.length) = (ds.take a.length).map fun d => (payload d).length := by
    have := congrArg (List.take a.length) hl
    rwa [List.take_left' (by simp), ← List.map_take] at this
  have e4 : b.map (·.length) = (ds.drop a.length).map fun d => (payload d).length := by
    have := congrArg (List.drop a.length) hl
    rwa [List.drop_left' (by simp), ← List.map_drop] at this
  refine ⟨(List.take_append_drop _ _).symm, e1, e2, ?_, ?_, e4⟩
  · rw [bytes_length, ← e3]; rfl
  · rw [bytes_length, ← e4]; rfl

theorem blocksOf_filter {m m' : OMap Document} {ids : List Bytes} {cfg : Cfg} (hwf : BlocksWF cfg m)
    (h : m'.list = m.list.filter fun p => !ids.contains p.1) (fid : Nat) :
    blocksOf m' fid = (blocksOf m fid).filter fun d => !ids.contains d.header.id := by
  unfold blocksOf
  rw [h, List.filter_filter]
  have : ∀ l : List (Bytes × Document), (∀ p ∈ l, p.2.header.id = p.1) →
      ((l.filter fun p => !ids.contains p.1).map (·.2)).filter (fun d => owner d == fid) =
        (l.map (·.2)).filter fun a => !ids.contains a.header.id && owner a == fid := by
    intro l
    induction l with
    | nil => intro _; rfl
    | cons p l ih =>
      intro hl
      have hp := hl p (by simp)
      have ih := ih fun q hq => hl q (by simp [hq])
      rw [List.map_cons, List.filter_cons, List.filter_cons]
      rw [hp]
      cases hc : ids.contains p.1 with
      | true => simpa [hc] using ih
      | false =>
        simp only [Bool.not_false, if_true, List.map_cons, List.filter_cons, Bool.true_and]
        rw [ih]
  refine this m.list ?_
  rintro ⟨id, d⟩ hp
  exact (hwf id d (OMap.mem_list_iff.mp hp)).2.1

theorem filter_ids_split {a b : List Document} (hs : (a ++ b).Pairwise fun x y => x.header.id < y.header.id) :
    (a ++ b).filter (fun d => !(a.map fun d => d.header.id).contains d.header.id) = b ∧
    (a ++ b).filter (fun d => !(b.map fun d => d.header.id).contains d.header.id) = a := by
  have hab := (List.pairwise_append.mp hs).2.2
  have hne : ∀ x ∈ a, ∀ y ∈ b, x.header.id ≠ y.header.id := fun x hx y hy e =>
    bytes_lt_irrefl _ (e ▸ hab x hx y hy)
  have all : ∀ l : List Document, l.filter (fun d => !(l.map fun d => d.header.id).contains d.header.id) = [] := by
    intro l
    rw [List.filter_eq_nil_iff]
    intro d hd
    simp only [Bool.not_eq_true, Bool.not_eq_false', List.contains_iff_mem]
    exact List.mem_map.mpr ⟨d, hd, rfl⟩
  rw [List.filter_append, List.filter_append, all, all]
  refine ⟨?_, ?_⟩
  · rw [List.nil_append, List.filter_eq_self]
    intro y hy
    simp only [Bool.not_eq_true', List.contains_eq_mem, decide_eq_false_iff_not, List.mem_map]
    rintro ⟨x, hx, e⟩
    exact hne x hx y hy e
  · rw [List.append_nil, List.filter_eq_self]
    intro x hx
    simp only [Bool.not_eq_true', List.contains_eq_mem, decide_eq_false_iff_not, List.mem_map]
    rintro ⟨y, hy, e⟩
    exact hne x hx y hy e.symm

theorem filter_other {m : OMap Document} {cfg : Cfg} (hwf : BlocksWF cfg m) {fid g : Nat} (hg : g ≠ fid)
    {ids : List Bytes} (hids : ∀ i ∈ ids, ∃ d ∈ blocksOf m fid, d.header.id = i) :
    (blocksOf m g).filter (fun d => !ids.contains d.header.id) = blocksOf m g := by
  rw [List.filter_eq_self]
  intro d hd
  simp only [Bool.not_eq_true', List.contains_eq_mem, decide_eq_false_iff_not]
  intro hi
  obtain ⟨d', hd', e⟩ := hids _ hi
  obtain ⟨o, id, h1⟩ := mem_blocksOf.mp hd
  obtain ⟨o', id', h2⟩ := mem_blocksOf.mp hd'
  rw [(hwf _ _ h1).2.1, (hwf _ _ h2).2.1] at e
  subst e
  rw [h1] at h2
  cases h2
  exact hg (o.symm.trans o')

theorem present_of_blocks {m : OMap Document} {cfg : Cfg} (hwf : BlocksWF cfg m) {fid : Nat} {l : List Document}
    (hl : l.Sublist (blocksOf m fid)) : Present m (l.map (·.header)) := by
  constructor
  · rw [List.map_map]
    have := List.Pairwise.sublist hl (blocksOf_sorted hwf fid)
    exact List.pairwise_map.mpr (this.imp fun {a b} (h : a.header.id < b.header.id) e =>
      bytes_lt_irrefl _ (show a.header.id < a.header.id by
        have e' : a.header.id = b.header.id := e
        rw [← e'] at h; exact h))
  · intro h hh
    obtain ⟨d, hd, rfl⟩ := List.mem_map.mp hh
    obtain ⟨-, id, hg⟩ := mem_blocksOf.mp (hl.subset hd)
    exact ⟨d, by rw [(hwf id d hg).2.1]; exact hg, rfl⟩

theorem wf_filter {m m' : OMap Document} {cfg : Cfg} (hwf : BlocksWF cfg m) {f : Bytes × Document → Bool}
    (h : m'.list = m.list.filter f) : BlocksWF cfg m' := by
  intro id d hd
  have hm := OMap.mem_list_iff.mpr hd
  rw [h] at hm
  exact hwf id d (OMap.mem_list_iff.mp (List.mem_filter.mp hm).1)

theorem infos_pos {cfg : Cfg} {m : OMap Document} (hwf : BlocksWF cfg m) (fid : Nat) :
    ∀ b ∈ infosOf (blocksOf m fid), 0 < b.length ∧ b.length ≤ cfg.size := by
  intro b hb
  have h1 : b.length ∈ (infosOf (blocksOf m fid)).map (·.length) := List.mem_map.mpr ⟨b, hb, rfl⟩
  rw [infosOf_lengths] at h1
  obtain ⟨d, hd, e⟩ := List.mem_map.mp h1
  obtain ⟨-, id, hg⟩ := mem_blocksOf.mp hd
  have := hwf id d hg
  have hp := List.length_pos_iff.mpr this.2.2.2.1
  rw [← e]
  exact ⟨hp, this.2.2.2.2⟩

theorem infos_total (ds : List Document) : ((infosOf ds).map (·.length)).sum = (ds.flatMap payload).length := by
  rw [infosOf_lengths, bytes_length]

/-- The blocks `truncate` deletes form one end of the file; what is left. -/
theorem truncate_split {cfg : Cfg} {m : OMap Document} (hwf : BlocksWF cfg m) (fid newLength : Nat) (from_ : Truncate) :
    ∃ del keep : List Document,
      (match from_ with
        | .removingStart => blocksOf m fid = del ++ keep
        | .removingEnd => blocksOf m fid = keep ++ del) ∧
      (∃ hs : List Header, (∀ h, h ∈ hs ↔ h ∈ del.map (·.header)) ∧ hs.length = del.length ∧
        (hs.map (·.id)).Nodup ∧
        truncateOps cfg (infosOf (blocksOf m fid)) newLength from_ = hs.map fun h => ⟨cfg.blocks, .delete h⟩) ∧
      ((bytesOf m fid).length ≤ newLength → del = []) ∧
      (newLength ≤ (bytesOf m fid).length → newLength ≤ (keep.flatMap payload).length) ∧
      (0 < cfg.size → newLength ≤ (bytesOf m fid).length → (keep.flatMap payload).length < newLength + cfg.size) ∧
      (newLength = 0 → keep = []) := by
  have hsorted := blocksOf_sorted hwf fid
  have hpos := infos_pos hwf fid
  have htot := infos_total (blocksOf m fid)
  have hnd : ∀ l : List Document, l.Sublist (blocksOf m fid) → ((l.map (·.header)).map (·.id)).Nodup :=
    fun l hl => (present_of_blocks hwf hl).1
  have hpay : ∀ d ∈ blocksOf m fid, 0 < (payload d).length := by
    intro d hd
    obtain ⟨-, id, hg⟩ := mem_blocksOf.mp hd
    exact List.length_pos_iff.mpr (hwf id d hg).2.2.2.1
  unfold bytesOf
  unfold truncateOps
  simp only [htot]
  by_cases hn : newLength ≤ ((blocksOf m fid).flatMap payload).length
  · simp only [hn, if_true]
    cases from_ with
    | removingStart =>
      obtain ⟨pre, post, e, h1, h2, h3⟩ := dropBlocks_spec (infosOf (blocksOf m fid))
        (((blocksOf m fid).flatMap payload).length - newLength) fun b hb => (hpos b hb).1
      obtain ⟨e0, e1, e2, e3, e4, e5⟩ := infosOf_split e
      generalize hdel : (blocksOf m fid).take pre.length = del at *
      generalize hkeep : (blocksOf m fid).drop pre.length = keep at *
      have hlen : ((blocksOf m fid).flatMap payload).length = (del.flatMap payload).length + (keep.flatMap payload).length := by
        rw [e0, List.flatMap_append, List.length_append]
      have hk : keep ≠ [] → ∃ b, post.head? = some b ∧ b.length ≤ (keep.flatMap payload).length ∧ b.length ≤ cfg.size := by
        intro hk
        cases hp : post with
        | nil => rw [hp] at e2; simp at e2; exact absurd e2 hk
        | cons b bs =>
          refine ⟨b, rfl, ?_, (hpos b (by rw [e, hp]; simp)).2⟩
          rw [← e4, hp]
          simp [lengths]
      refine ⟨del, keep, e0, ⟨del.map (·.header), fun _ => Iff.rfl, by simp, ?_, by rw [h1, e1]⟩, ?_, ?_, ?_, ?_⟩
      · exact hnd del (by rw [e0]; exact List.sublist_append_left ..)
      · intro hle
        cases hd : del with
        | nil => rfl
        | cons d ds =>
          exfalso
          have := hpay d (by rw [e0, hd]; simp)
          rw [e3, hd] at h2
          simp only [List.flatMap_cons, List.length_append] at h2
          omega
      · intro _; omega
      · intro hz _
        by_cases hk' : keep = []
        · rw [hk']; simp; omega
        · obtain ⟨b, hb, _, hb2⟩ := hk hk'
          have := h3 b hb
          omega
      · intro h0
        by_cases hk' : keep = []
        · exact hk'
        · obtain ⟨b, hb, hb1, _⟩ := hk hk'
          have := h3 b hb
          omega
    | removingEnd =>
      obtain ⟨pre, post, e, h1, h2, h3⟩ := dropBlocks_spec (infosOf (blocksOf m fid)).reverse
        (((blocksOf m fid).flatMap payload).length - newLength) fun b hb => (hpos b (List.mem_reverse.mp hb)).1
      have e' : infosOf (blocksOf m fid) = post.reverse ++ pre.reverse := by
        rw [← List.reverse_append, ← e, List.reverse_reverse]
      obtain ⟨e0, e1, e2, e3, e4, e5⟩ := infosOf_split e'
      generalize hkeep : (blocksOf m fid).take post.reverse.length = keep at *
      generalize hdel : (blocksOf m fid).drop post.reverse.length = del at *
      have hlen : ((blocksOf m fid).flatMap payload).length = (keep.flatMap payload).length + (del.flatMap payload).length := by
        rw [e0, List.flatMap_append, List.length_append]
      have hrev : ∀ l : List BlockInfo, lengths l.reverse = lengths l := by
        intro l
        simp [lengths, List.sum_reverse]
      rw [hrev] at e3 e4
      have hk : keep ≠ [] → ∃ b, post.head? = some b ∧ b.length ≤ (keep.flatMap payload).length ∧ b.length ≤ cfg.size := by
        intro hk
        cases hp : post with
        | nil => rw [hp] at e1; simp at e1; exact absurd e1 hk
        | cons b bs =>
          refine ⟨b, rfl, ?_, (hpos b (by rw [e', hp]; simp)).2⟩
          rw [← e3, hp]
          simp [lengths]
      refine ⟨del, keep, e0, ⟨pre.map (·.header), ?_, ?_, ?_, by rw [h1]⟩, ?_, ?_, ?_, ?_⟩
      · intro h
        rw [← e2]
        simp
      · have := congrArg List.length e2
        simpa using this
      · have h5 := hnd del (by rw [e0]; exact List.sublist_append_right ..)
        rw [← e2, List.map_reverse, List.map_reverse] at h5
        exact (List.reverse_perm _).nodup_iff.mp h5
      · intro hle
        cases hd : del with
        | nil => rfl
        | cons d ds =>
          exfalso
          have := hpay d (by rw [e0, hd]; simp)
          rw [e4, hd] at h2
          simp only [List.flatMap_cons, List.length_append] at h2
          omega
      · intro _; omega
      · intro hz _
        by_cases hk' : keep = []
        · rw [hk']; simp; omega
        · obtain ⟨b, hb, _, hb2⟩ := hk hk'
          have := h3 b hb
          omega
      · intro h0
        by_cases hk' : keep = []
        · exact hk'
        · obtain ⟨b, hb, hb1, _⟩ := hk hk'
          have := h3 b hb
          omega
  · simp only [hn, if_false]
    refine ⟨[], blocksOf m fid, by cases from_ <;> simp, ⟨[], by simp, rfl, by simp, rfl⟩, fun _ => rfl, fun h => h.elim,
      fun _ h => h.elim, fun h => absurd (Nat.zero_le _) (h ▸ hn)⟩

/-- **C50**: truncating.  `blocks` was read (from an up-to-date view, `forFile_eq`) when the file had the same
blocks as now. -/
theorem C50_truncate (s : Schema) (cfg : Cfg) (hs : HasFiles s cfg) (hz : 0 < cfg.size) (db : Db)
    (hwf : BlocksWF cfg (db.trees.docs cfg.blocks)) (m₀ : OMap Document) (fid : Nat) (newLength : Nat)
    (from_ : Truncate) (tid : Nat) (hsame : blocksOf m₀ fid = blocksOf (db.trees.docs cfg.blocks) fid) :
    ∃ db', truncate s cfg (infosOf (blocksOf m₀ fid)) newLength from_ tid db = (.ok (), db') ∧
      (match from_ with
        | .removingStart => contents cfg db' fid <:+ contents cfg db fid
        | .removingEnd => contents cfg db' fid <+: contents cfg db fid) ∧
      ((contents cfg db fid).length ≤ newLength → contents cfg db' fid = contents cfg db fid) ∧
      (newLength ≤ (contents cfg db fid).length →
        newLength ≤ (contents cfg db' fid).length ∧ (contents cfg db' fid).length < newLength + cfg.size) ∧
      (newLength = 0 → contents cfg db' fid = []) ∧
      (∀ g, g ≠ fid → contents cfg db' g = contents cfg db g) ∧
      BlocksWF cfg (db'.trees.docs cfg.blocks) ∧
      ∀ c, c ≠ cfg.blocks → db'.trees.docs c = db.trees.docs c := by
  rw [hsame]
  obtain ⟨del, keep, hsplit, ⟨hds, hmem, hlen, hnd, hops⟩, h1, h2, h3, h4⟩ := truncate_split hwf fid newLength from_
  have hsub : ∀ d ∈ del, d ∈ blocksOf (db.trees.docs cfg.blocks) fid := by
    intro d hd
    cases from_ <;> simp only at hsplit <;> rw [hsplit] <;> simp [hd]
  have hpres : Present (db.trees.docs cfg.blocks) hds := by
    refine ⟨hnd, fun h hh => ?_⟩
    obtain ⟨d, hd, rfl⟩ := List.mem_map.mp ((hmem h).mp hh)
    obtain ⟨-, id, hg⟩ := mem_blocksOf.mp (hsub d hd)
    exact ⟨d, by rw [(hwf id d hg).2.1]; exact hg, rfl⟩
  obtain ⟨rs, db', happ, hb, ho⟩ := apply_deletes hs tid hpres
  have hids : ∀ x : Bytes, (hds.map (·.id)).contains x = (del.map fun d => d.header.id).contains x := by
    intro x
    rw [Bool.eq_iff_iff]
    simp only [List.contains_iff_mem, List.mem_map]
    constructor
    · rintro ⟨h, hh, rfl⟩
      obtain ⟨d, hd, rfl⟩ := List.mem_map.mp ((hmem h).mp hh)
      exact ⟨d, hd, rfl⟩
    · rintro ⟨d, hd, rfl⟩
      exact ⟨d.header, (hmem _).mpr (List.mem_map.mpr ⟨d, hd, rfl⟩), rfl⟩
  have hsorted := blocksOf_sorted hwf fid
  have hkeep : blocksOf (db'.trees.docs cfg.blocks) fid = keep := by
    rw [blocksOf_filter hwf hb]
    simp only [hids]
    cases from_ with
    | removingStart =>
      simp only at hsplit
      rw [hsplit] at hsorted ⊢
      exact (filter_ids_split hsorted).1
    | removingEnd =>
      simp only at hsplit
      rw [hsplit] at hsorted ⊢
      exact (filter_ids_split hsorted).2
  have hc : contents cfg db' fid = keep.flatMap payload := by unfold contents bytesOf; rw [hkeep]
  refine ⟨db', by unfold truncate; rw [hops, happ], ?_, ?_, ?_, ?_, ?_, wf_filter hwf hb, ho⟩
  · rw [hc]
    unfold contents bytesOf
    cases from_ with
    | removingStart =>
      simp only at hsplit ⊢
      rw [hsplit, List.flatMap_append]
      exact List.suffix_append ..
    | removingEnd =>
      simp only at hsplit ⊢
      rw [hsplit, List.flatMap_append]
      exact List.prefix_append ..
  · intro hle
    have := h1 hle
    rw [hc]
    unfold contents bytesOf
    cases from_ <;> simp only at hsplit <;> rw [hsplit, this] <;> simp
  · intro hle
    rw [hc]
    exact ⟨h2 hle, h3 hz hle⟩
  · intro h0
    rw [hc, h4 h0]
    rfl
  · intro g hg
    unfold contents bytesOf
    rw [blocksOf_filter hwf hb, filter_other hwf hg]
    intro i hi
    obtain ⟨h, hh, rfl⟩ := List.mem_map.mp hi
    obtain ⟨d, hd, rfl⟩ := List.mem_map.mp ((hmem h).mp hh)
    exact ⟨d, hsub d hd, rfl⟩

end Bonsai.Files
