import Verif.Net.Handshake
/-!
# C98: how a client and a server come to speak

A client and a server speak exactly if they speak the same version of the protocol; if not the client is told.  Violated
where a program hands connections to the server with `upgrade_websocket`, and in browsers.
-/
set_option linter.unusedSimpArgs false
set_option linter.unusedVariables false

namespace Bonsai.Hand

/-! ## Specification -/

/-- The item `v` stands in the comma-separated list `value`, with blanks around it or not (RFC 7230, 7). -/
def Lists (value v : List Nat) : Prop :=
  ∃ a l r b, value = a ++ (l ++ v ++ r) ++ b ∧ (a = [] ∨ a.getLast? = some 44) ∧ (b = [] ∨ b.head? = some 44) ∧
    (∀ x, x ∈ l → x = 32 ∨ x = 9) ∧ ∀ x, x ∈ r → x = 32 ∨ x = 9

/-- A name of a version: not empty, no comma, no blanks at its ends. -/
structure Version (v : List Nat) : Prop where
  comma : 44 ∉ v
  first : ∃ x l, v = x :: l ∧ x ≠ 32 ∧ x ≠ 9
  last : ∃ l x, v = l ++ [x] ∧ x ≠ 32 ∧ x ≠ 9

/-- Some version of the client in the first line of the header is the server's. -/
def OffersCurrent (h : Headers) : Prop :=
  ∃ before v after, h = before ++ ("sec-websocket-protocol", v) :: after ∧
    (∀ x, x ∈ before → x.1 ≠ "sec-websocket-protocol") ∧ (∀ b, b ∈ v → (32 ≤ b ∧ b < 127) ∨ b = 9) ∧ Lists v current

/-! ## Proofs -/

theorem version_current : Version current := by
  refine ⟨by decide +kernel, ⟨98, _, rfl, by decide, by decide⟩, ⟨current.dropLast, 49, by decide +kernel, by decide, by decide⟩⟩

theorem mem_tail_split (x : List Nat) : ∀ s : List Nat, x ∈ (splitComma s).tail ↔
    44 ∉ x ∧ ∃ a b, s = a ++ 44 :: (x ++ b) ∧ (b = [] ∨ b.head? = some 44)
  | [] => by simp [splitComma]
  | c :: cs => by
    have ih := mem_tail_split x cs
    have hd := head_split x cs
    by_cases hc : c = 44
    · subst hc
      simp only [splitComma, if_true, List.tail_cons]
      constructor
      · intro h
        match e : splitComma cs, h with
        | p :: ps, h =>
          rcases List.mem_cons.1 h with rfl | h
          · obtain ⟨h1, b, h2, h3⟩ := hd.1 (by rw [e]; rfl)
            exact ⟨h1, [], b, by rw [h2]; rfl, h3⟩
          · obtain ⟨h1, a, b, h2, h3⟩ := ih.1 (by rw [e]; exact h)
            exact ⟨h1, 44 :: a, b, by rw [h2]; rfl, h3⟩
      · rintro ⟨h1, a, b, h2, h3⟩
        cases a with
        | nil =>
          simp only [List.nil_append, List.cons.injEq, true_and] at h2
          have := hd.2 ⟨h1, b, h2, h3⟩
          exact List.mem_of_head? this
        | cons y a =>
          simp only [List.cons_append, List.cons.injEq] at h2
          exact List.mem_of_mem_tail (ih.2 ⟨h1, a, b, h2.2, h3⟩)
    · have ht : (splitComma (c :: cs)).tail = (splitComma cs).tail := by
        simp only [splitComma, if_neg hc]
        split <;> rename_i e <;> simp [e]
      rw [ht, ih]
      constructor
      · rintro ⟨h1, a, b, h2, h3⟩
        exact ⟨h1, c :: a, b, by rw [h2]; rfl, h3⟩
      · rintro ⟨h1, a, b, h2, h3⟩
        cases a with
        | nil =>
          simp only [List.nil_append, List.cons.injEq] at h2
          exact absurd h2.1 hc
        | cons y a =>
          simp only [List.cons_append, List.cons.injEq] at h2
          exact ⟨h1, a, b, h2.2, h3⟩
where
  head_split (x : List Nat) : ∀ s : List Nat, (splitComma s).head? = some x ↔
      44 ∉ x ∧ ∃ b, s = x ++ b ∧ (b = [] ∨ b.head? = some 44)
    | [] => by
      simp only [splitComma, List.head?_cons, Option.some.injEq]
      constructor
      · rintro rfl; exact ⟨by simp, [], rfl, Or.inl rfl⟩
      · rintro ⟨_, b, h, _⟩
        exact ((List.append_eq_nil_iff.1 h.symm).1).symm
    | c :: cs => by
      by_cases hc : c = 44
      · subst hc
        simp only [splitComma, if_true, List.head?_cons, Option.some.injEq]
        constructor
        · rintro rfl; exact ⟨by simp, 44 :: cs, rfl, Or.inr rfl⟩
        · rintro ⟨h1, b, h2, _⟩
          cases x with
          | nil => rfl
          | cons y x =>
            simp only [List.cons_append, List.cons.injEq] at h2
            exact absurd (by rw [← h2.1]; exact List.mem_cons_self) h1
      · have hne : splitComma cs ≠ [] := by
          cases cs with
          | nil => simp [splitComma]
          | cons d ds =>
            simp only [splitComma]
            split
            · simp
            · split <;> simp
        match e : splitComma cs, hne with
        | p :: ps, _ =>
          simp only [splitComma, if_neg hc, e, List.head?_cons, Option.some.injEq]
          have ih := head_split p cs
          rw [e] at ih
          obtain ⟨h1, b, h2, h3⟩ := ih.1 rfl
          constructor
          · rintro rfl
            refine ⟨by simp [h1, Ne.symm hc], b, by rw [h2]; rfl, h3⟩
          · rintro ⟨g1, b', g2, g3⟩
            cases x with
            | nil =>
              rcases g3 with rfl | g3
              · simp at g2
              · simp only [List.nil_append] at g2
                subst g2
                simp only [List.head?_cons, Option.some.injEq] at g3
                exact absurd g3 hc
            | cons y x =>
              simp only [List.cons_append, List.cons.injEq] at g2
              have := (head_split x cs).2 ⟨fun hm => g1 (List.mem_cons_of_mem _ hm), b', g2.2, g3⟩
              rw [e] at this
              simp only [List.head?_cons, Option.some.injEq] at this
              rw [this, g2.1]

theorem mem_split (x s : List Nat) : x ∈ splitComma s ↔
    44 ∉ x ∧ ∃ a b, s = a ++ x ++ b ∧ (a = [] ∨ a.getLast? = some 44) ∧ (b = [] ∨ b.head? = some 44) := by
  have h1 := mem_tail_split x s
  have h2 := mem_tail_split.head_split x s
  have h3 : x ∈ splitComma s ↔ (splitComma s).head? = some x ∨ x ∈ (splitComma s).tail := by
    cases splitComma s with
    | nil => simp
    | cons p ps => simp [eq_comm]
  rw [h3, h1, h2]
  constructor
  · rintro (⟨g1, b, g2, g3⟩ | ⟨g1, a, b, g2, g3⟩)
    · exact ⟨g1, [], b, by simpa using g2, Or.inl rfl, g3⟩
    · exact ⟨g1, a ++ [44], b, by rw [g2]; simp, Or.inr (by simp), g3⟩
  · rintro ⟨g1, a, b, g2, (rfl | g3), g4⟩
    · exact Or.inl ⟨g1, b, by simpa using g2, g4⟩
    · obtain ⟨a', rfl⟩ := List.getLast?_eq_some_iff.1 g3
      exact Or.inr ⟨g1, a', b, by rw [g2]; simp, g4⟩

theorem dropWhile_blank (l m : List Nat) (h : ∀ x, x ∈ l → x = 32 ∨ x = 9) :
    (l ++ m).dropWhile blank = m.dropWhile blank := by
  induction l with
  | nil => rfl
  | cons y l ih =>
    have hy := h y List.mem_cons_self
    have : blank y = true := by simpa [blank] using hy
    rw [List.cons_append, List.dropWhile_cons_of_pos this, ih fun x hx => h x (List.mem_cons_of_mem _ hx)]

theorem dropWhile_split (p : List Nat) : ∃ l, p = l ++ p.dropWhile blank ∧ ∀ x, x ∈ l → x = 32 ∨ x = 9 := by
  induction p with
  | nil => exact ⟨[], rfl, by simp⟩
  | cons y p ih =>
    by_cases hy : blank y = true
    · obtain ⟨l, h1, h2⟩ := ih
      refine ⟨y :: l, ?_, ?_⟩
      · rw [List.dropWhile_cons_of_pos hy, List.cons_append, ← h1]
      · intro x hx
        rcases List.mem_cons.1 hx with rfl | hx
        · simpa [blank] using hy
        · exact h2 x hx
    · exact ⟨[], by rw [List.dropWhile_cons_of_neg hy]; rfl, by simp⟩

theorem trim_iff {v : List Nat} (hv : Version v) (p : List Nat) :
    trim p = v ↔ ∃ l r, p = l ++ v ++ r ∧ (∀ x, x ∈ l → x = 32 ∨ x = 9) ∧ ∀ x, x ∈ r → x = 32 ∨ x = 9 := by
  constructor
  · rintro rfl
    obtain ⟨l, h1, h2⟩ := dropWhile_split p
    obtain ⟨r, g1, g2⟩ := dropWhile_split (p.dropWhile blank).reverse
    refine ⟨l, r.reverse, ?_, h2, fun x hx => g2 x (List.mem_reverse.1 hx)⟩
    have : p.dropWhile blank = trim p ++ r.reverse := by
      have := congrArg List.reverse g1
      simpa [trim] using this
    rw [List.append_assoc, ← this]
    exact h1
  · rintro ⟨l, r, rfl, hl, hr⟩
    obtain ⟨x, v', e, x1, x2⟩ := hv.first
    obtain ⟨v'', y, e', y1, y2⟩ := hv.last
    have hx : ¬ blank x = true := by simp [blank, x1, x2]
    have hy : ¬ blank y = true := by simp [blank, y1, y2]
    unfold trim
    rw [List.append_assoc, dropWhile_blank l _ hl]
    have s1 : (v ++ r).dropWhile blank = v ++ r := by
      rw [e, List.cons_append, List.dropWhile_cons_of_neg hx]
    rw [s1, List.reverse_append, dropWhile_blank _ _ fun z hz => hr z (List.mem_reverse.1 hz)]
    have s2 : v.reverse.dropWhile blank = v.reverse := by
      rw [e', List.reverse_append, List.reverse_singleton, List.singleton_append, List.dropWhile_cons_of_neg hy]
    rw [s2, List.reverse_reverse]

theorem mem_versions {v : List Nat} (hv : Version v) (value : List Nat) :
    v ∈ (splitComma value).map trim ↔ Lists value v := by
  simp only [List.mem_map]
  constructor
  · rintro ⟨p, h1, h2⟩
    obtain ⟨l, r, rfl, hl, hr⟩ := (trim_iff hv p).1 h2
    obtain ⟨g1, a, b, rfl, g3, g4⟩ := (mem_split _ _).1 h1
    exact ⟨a, l, r, b, rfl, g3, g4, hl, hr⟩
  · rintro ⟨a, l, r, b, rfl, ha, hb, hl, hr⟩
    refine ⟨l ++ v ++ r, (mem_split _ _).2 ⟨?_, a, b, rfl, ha, hb⟩, (trim_iff hv _).2 ⟨l, r, rfl, hl, hr⟩⟩
    simp only [List.mem_append, not_or]
    refine ⟨⟨fun h => ?_, hv.comma⟩, fun h => ?_⟩
    · have := hl _ h; omega
    · have := hr _ h; omega

theorem header_iff (h : Headers) (n : String) (v : List Nat) :
    header h n = some v ↔ ∃ before after, h = before ++ (n, v) :: after ∧ ∀ x, x ∈ before → x.1 ≠ n := by
  induction h with
  | nil => simp [header]
  | cons x h ih =>
    by_cases hx : x.1 = n
    · have : header (x :: h) n = some x.2 := by simp [header, hx]
      rw [this]
      constructor
      · intro e
        obtain rfl := Option.some.inj e
        exact ⟨[], h, by rw [← hx]; rfl, by simp⟩
      · rintro ⟨b, a, e, hb⟩
        cases b with
        | nil => simp only [List.nil_append, List.cons.injEq] at e; rw [e.1]
        | cons y b =>
          simp only [List.cons_append, List.cons.injEq] at e
          exact absurd (e.1 ▸ hx) (hb y List.mem_cons_self)
    · have : header (x :: h) n = header h n := by simp [header, hx]
      rw [this, ih]
      constructor
      · rintro ⟨b, a, rfl, hb⟩
        refine ⟨x :: b, a, rfl, ?_⟩
        intro y hy
        rcases List.mem_cons.1 hy with rfl | hy
        · exact hx
        · exact hb y hy
      · rintro ⟨b, a, e, hb⟩
        cases b with
        | nil => simp only [List.nil_append, List.cons.injEq] at e; rw [e.1] at hx; exact absurd rfl hx
        | cons y b =>
          simp only [List.cons_append, List.cons.injEq] at e
          exact ⟨b, a, e.2, fun z hz => hb z (List.mem_cons_of_mem _ hz)⟩

theorem readable_iff (v : List Nat) : readable v = true ↔ ∀ b, b ∈ v → (32 ≤ b ∧ b < 127) ∨ b = 9 := by
  simp [readable, List.all_eq_true]

/-! ## Versions -/

/-- The server's own listener takes a WebSocket exactly if the first line that names versions names the server's; then it
says so, and otherwise it answers 406. -/
theorem C98_listener (h : Headers) : (OffersCurrent h ∧ checkVersion h = ⟨101, some current⟩) ∨
    (¬ OffersCurrent h ∧ checkVersion h = ⟨406, none⟩) := by
  unfold checkVersion
  cases e : header h "sec-websocket-protocol" with
  | none =>
    refine Or.inr ⟨?_, rfl⟩
    rintro ⟨b, v, a, h1, h2, _⟩
    rw [(header_iff h _ v).2 ⟨b, a, h1, h2⟩] at e
    cases e
  | some v =>
    simp only
    by_cases g : readable v = true ∧ current ∈ (splitComma v).map trim
    · rw [if_pos g]
      obtain ⟨b, a, h1, h2⟩ := (header_iff h _ v).1 e
      exact Or.inl ⟨⟨b, v, a, h1, h2, (readable_iff v).1 g.1, (mem_versions version_current v).1 g.2⟩, rfl⟩
    · rw [if_neg g]
      refine Or.inr ⟨?_, rfl⟩
      rintro ⟨b, v', a, h1, h2, h3, h4⟩
      rw [(header_iff h _ v').2 ⟨b, a, h1, h2⟩] at e
      obtain rfl := Option.some.inj e
      exact g ⟨(readable_iff v').2 h3, (mem_versions version_current v').2 h4⟩

theorem lists_self {v w : List Nat} (hv : Version v) (hw : Version w) : Lists v w ↔ v = w := by
  rw [← mem_versions hw]
  have e : splitComma v = [v] := by
    have h := (mem_tail_split.head_split v v).2 ⟨hv.comma, [], by simp, Or.inl rfl⟩
    have t : (splitComma v).tail = [] := by
      refine List.eq_nil_iff_forall_not_mem.2 fun x hx => ?_
      obtain ⟨_, a, b, g, _⟩ := (mem_tail_split x v).1 hx
      exact hv.comma (by rw [g]; simp)
    match e : splitComma v, h, t with
    | p :: ps, h, t =>
      simp only [List.head?_cons, Option.some.injEq, List.tail_cons] at h t
      rw [h, t]
  have t : trim v = v := (trim_iff hv v).2 ⟨[], [], by simp, by simp, by simp⟩
  rw [e, List.map_singleton, List.mem_singleton, t, eq_comm]

theorem request_version (a : Address) (v k : List Nat) : header (clientRequest a v k) "sec-websocket-protocol" = some v := rfl

theorem listener_client (a : Address) {v : List Nat} (k : List Nat) (hv : Version v)
    (hr : ∀ b, b ∈ v → (32 ≤ b ∧ b < 127) ∨ b = 9) :
    checkVersion (clientRequest a v k) = if v = current then ⟨101, some current⟩ else ⟨406, none⟩ := by
  unfold checkVersion
  rw [request_version]
  simp only [mem_versions version_current, lists_self hv version_current, (readable_iff v).2 hr, true_and]

/-- At the server's own listeners: a client of the server's version connects, on every transport; a client of another
version does not, and a native one is told why.  Missing: that a browser is told, `C98_violated_browser`; connections that
arrive by `upgrade_websocket`, `C98_violated_upgrade`. -/
theorem C98_version_partial (t : Transport) (a : Address) (v key : List Nat) (hv : Version v)
    (hr : ∀ b, b ∈ v → (32 ≤ b ∧ b < 127) ∨ b = 9) :
    (v = current → connect t .listener a v key = .connected) ∧
      (v ≠ current → connect t .listener a v key = if t = .browserSocket then .failed else .mismatch) := by
  cases t <;> simp only [connect, Place.answer, listener_client a key hv hr, quicOutcome, nativeOutcome, browserOutcome]
  · simp only [List.mem_singleton, exists_eq_left]
    grind
  · grind
  · grind

/-- A browser with another version fails with an error that does not say why. -/
theorem C98_violated_browser (a : Address) (v key : List Nat) (hv : Version v)
    (hr : ∀ b, b ∈ v → (32 ≤ b ∧ b < 127) ∨ b = 9) (hne : v ≠ current) :
    connect .browserSocket .listener a v key = .failed ∧ connect .websocket .listener a v key = .mismatch :=
  ⟨((C98_version_partial .browserSocket a v key hv hr).2 hne), ((C98_version_partial .websocket a v key hv hr).2 hne)⟩

/-- Where a program hands the request to `upgrade_websocket` a native client of any version is connected, and no client in
a browser is, not even one of the server's version. -/
theorem C98_violated_upgrade (a : Address) (v key : List Nat) :
    connect .websocket .upgrade a v key = .connected ∧ connect .browserSocket .upgrade a v key = .failed := ⟨rfl, rfl⟩

/-- `upgrade_websocket` answers 400 exactly if the request names nothing to upgrade to or has no key. -/
theorem C98_upgrade (h : Headers) :
    (upgrade h).protocol = none ∧ ((upgrade h).status = 400 ∨ (upgrade h).status = 101) ∧
      ((upgrade h).status = 400 ↔ (∀ x, x ∈ h → x.1 ≠ "upgrade") ∨ ∀ x, x ∈ h → x.1 ≠ "sec-websocket-key") := by
  have key : ∀ n, (header h n).isNone = true ↔ ∀ x, x ∈ h → x.1 ≠ n := by
    intro n
    simp [header, List.find?_eq_none]
  rw [← key, ← key]
  unfold upgrade
  split
  · rename_i g; simp [g]
  · split
    · rename_i g; simp [g]
    · rename_i g1 g2; simp [g1, g2]

/-- It also upgrades a request for something else than a WebSocket. -/
theorem C98_violated_upgrade_to : ∃ h, header h "upgrade" = some (text "h2c") ∧ (upgrade h).status = 101 :=
  ⟨[("upgrade", text "h2c"), ("sec-websocket-key", [])], rfl, by decide⟩

/-- A client that names the server's version in a second line of the header is refused, although lines of a list are one
list (RFC 6455, 4.1 and 11.3.4). -/
theorem C98_violated_lines : ∃ h : Headers, ("sec-websocket-protocol", current) ∈ h ∧ (checkVersion h).status = 406 :=
  ⟨[("sec-websocket-protocol", text "other"), ("sec-websocket-protocol", current)], by simp, by decide +kernel⟩

/-! ## Addresses -/

/-- The transport is that of the scheme; a client for any other address is refused when it is built; QUIC connects to the
port that the address names, or to 5645. -/
theorem C98_address (browser : Bool) (a : Address) :
    (transport browser a = some .quic ↔ a.scheme = "bonsaidb" ∧ browser = false) ∧
      (transport browser a = some .websocket ↔ (a.scheme = "ws" ∨ a.scheme = "wss") ∧ browser = false) ∧
      (transport browser a = some .browserSocket ↔ (a.scheme = "ws" ∨ a.scheme = "wss") ∧ browser = true) ∧
      (transport browser a = none ↔ a.scheme ≠ "ws" ∧ a.scheme ≠ "wss" ∧ (a.scheme ≠ "bonsaidb" ∨ browser = true)) ∧
      (∀ p, a.port = some p → quicPort a = p) ∧ (a.port = none → quicPort a = 5645) := by
  have n1 : "bonsaidb" ≠ "ws" := by decide
  have n2 : "bonsaidb" ≠ "wss" := by decide
  have n3 : "ws" ≠ "wss" := by decide
  refine ⟨?_, ?_, ?_, ?_, fun p h => by simp [quicPort, h], fun h => by simp [quicPort, h]⟩ <;>
    unfold transport <;> cases browser <;> grind

/-- The host that the native WebSocket client sends lacks the port of its address. -/
theorem C98_violated_host (scheme host : String) (p q : Nat) (v key : List Nat) :
    header (clientRequest ⟨scheme, host, some p⟩ v key) "host" = some (text host) ∧
      clientRequest ⟨scheme, host, some p⟩ v key = clientRequest ⟨scheme, host, some q⟩ v key := ⟨rfl, rfl⟩

/-! ## Routes -/

/-- With protocols that have names: a connection for a challenge of ACME is closed without a word and the service never
sees it; any other is the service's, and the server's WebSocket's exactly if the service does not take it.  Its protocol
is the one that was negotiated, or the service's first. -/
theorem C98_routes (takes : Proto → Bool) (available : List Proto) (secure : Bool) (alpn : Option String)
    (hne : available ≠ []) (hn : ∀ p, p ∈ available → p ≠ .other)
    (ha : ∀ n, alpn = some n → ∃ p, p ∈ available ∧ p.name = some n) :
    ∃ p, p ∈ available ∧
      (if secure = true ∧ alpn.isSome then p.name = alpn else available.head? = some p) ∧
      accept takes available secure alpn =
        some (if p = .acme then .closed else if takes p = true then .service else .websocket) := by
  have hr : ∀ p, p ≠ Proto.other → route takes p =
      (if p = .acme then .closed else if takes p = true then .service else .websocket) := by
    intro p hp
    cases p with
    | http1 => simp [route, Proto.name]
    | acme => simp [route, Proto.name]
    | other => exact absurd rfl hp
  match available, hne with
  | q :: qs, _ =>
    have hany : ((q :: qs).any fun x => x.name.isNone) = false := by
      rw [List.any_eq_false]
      intro x hx
      have := hn x hx
      cases x <;> simp [Proto.name] at *
    simp only [accept, hany]
    cases secure with
    | false =>
      refine ⟨q, List.mem_cons_self, by simp, ?_⟩
      simp [hr q (hn q List.mem_cons_self)]
    | true =>
      cases alpn with
      | none =>
        refine ⟨q, List.mem_cons_self, by simp, ?_⟩
        simp [hr q (hn q List.mem_cons_self)]
      | some n =>
        obtain ⟨p, hp, hpn⟩ := ha n rfl
        cases e : (q :: qs).find? fun x => x.name = some n with
        | none =>
          have := List.find?_eq_none.1 e p hp
          simp [hpn] at this
        | some x =>
          have h1 := List.mem_of_find?_eq_some e
          have h2 := List.find?_some e
          refine ⟨x, h1, by simpa using h2, ?_⟩
          simp only [Option.bind_some, e, Option.getD_some, if_true, Bool.false_eq_true, if_false]
          rw [hr x (hn x h1)]

/-- A service may name `StandardTcpProtocols::Other`: then every plain connection panics, and a listener with TLS does when
it starts. -/
theorem C98_violated_other (takes : Proto → Bool) (ps : List Proto) (alpn : Option String) :
    accept takes (.other :: ps) false alpn = some .panicked ∧ accept takes (.other :: ps) true alpn = none := by
  simp [accept, route, Proto.name]

/-! ## Examples -/

example : OffersCurrent [("host", text "x"), ("sec-websocket-protocol", text "v2 ,\tbonsai-pre-1")] := by
  refine ⟨[("host", text "x")], text "v2 ,\tbonsai-pre-1", [], rfl, ?_, ?_, text "v2 ,", [9], [], [], by decide +kernel,
    Or.inr (by decide +kernel), Or.inl rfl, ?_, ?_⟩
  · simp
  · decide +kernel
  · simp
  · simp

example : ∃ v, Version v ∧ (∀ b, b ∈ v → (32 ≤ b ∧ b < 127) ∨ b = 9) ∧ v ≠ current := by
  refine ⟨[98], ⟨by simp, ⟨98, [], rfl, by decide, by decide⟩, ⟨[], 98, rfl, by decide, by decide⟩⟩, by simp, by decide +kernel⟩

example : checkVersion [("sec-websocket-protocol", text "bonsai-pre-10")] = ⟨406, none⟩ := by decide +kernel

example : accept (fun p => p == .http1) [.http1, .acme] true (some "acme-tls/1") = some .closed := by decide

end Bonsai.Hand
