import Verif.Proofs.QuotedScan

/-!
# Scanning plain scalars that are made of known pieces
-/

namespace LibYaml

variable {m : Mark}

/-- The pieces of a plain scalar, after a piece of kind `k`; the last one is not blank. -/
def PlainPieces (flow : Bool) (indent : Int) : Nat → List Piece → Prop
  | k, [] => k = 0
  | k, p :: ps =>
    (match p with
      | .lit c => isBlankz c = false ∧ (k ≠ 0 → c ≠ 35) ∧ (flow = true → isFlowIndicator c = false ∧ c ≠ 58) ∧
          (c = 58 → ∃ d qs, ps = .lit d :: qs)
      | .sp => k ≠ 2
      | .gap bs n => bs = [0xA] ∧ k = 0 ∧ 1 ≤ n ∧ indent ≤ n
      | .esc _ _ => False) ∧ PlainPieces flow indent p.kind ps

/-- A plain scalar ends before this text. -/
inductive PlainStop (flow : Bool) : Text → Prop
  | eof (r) : PlainStop flow (0 :: r)
  | value (d r) : isBlankz d = true → PlainStop flow (58 :: d :: r)
  | flow (c r) : flow = true → isFlowIndicator c = true → PlainStop flow (c :: r)

/-- `---` or `...` and a blank. -/
def DocLine (t : Text) : Prop := ∃ d r, isBlankz d = true ∧ (t = 45 :: 45 :: 45 :: d :: r ∨ t = 46 :: 46 :: 46 :: d :: r)

/-- What may follow a plain scalar in the output of the emitter, and what remains of it once the scalar is read; the flag says whether it
begins with a line break. -/
inductive PlainEnd (flow : Bool) (indent : Int) (lb : Break) : Text → Text → Bool → Prop
  | here (t) : PlainStop flow t → PlainEnd flow indent lb t t false
  | spaces (k : Nat) (t : Text) : 0 < k → PlainStop flow t → PlainEnd flow indent lb (List.replicate k 0x20 ++ t) t false
  | line (bs : Text) (k : Nat) (t : Text) : bs ≠ [] → (∀ b ∈ bs, keptBreak b) → Stops t →
      (PlainStop flow t ∨ (flow = false ∧ (k : Int) < indent) ∨ (k = 0 ∧ DocLine t)) →
      PlainEnd flow indent lb (breaksOut lb bs ++ (List.replicate k 0x20 ++ t)) t true

theorem isFlowIndicator_facts {c : Nat} (h : isFlowIndicator c = true) : isBlankz c = false ∧ c ≠ 58 ∧ c ≠ 45 ∧ c ≠ 46 ∧ isBlank c = false ∧ isBreak c = false := by
  unfold isFlowIndicator at h
  simp only [Bool.or_eq_true, beq_iff_eq] at h
  rcases h with (((h | h) | h) | h) | h <;> subst h <;> decide

theorem PlainStop.stops {flow : Bool} {t : Text} (h : PlainStop flow t) : Stops t := by
  cases h with
  | eof r => exact ⟨_, _, rfl, by decide, by decide⟩
  | value d r _ => exact ⟨_, _, rfl, by decide, by decide⟩
  | flow c r _ h => exact ⟨_, _, rfl, (isFlowIndicator_facts h).2.2.2.2.1, (isFlowIndicator_facts h).2.2.2.2.2⟩

theorem PlainStop.head {flow : Bool} {t : Text} (h : PlainStop flow t) : ∃ c r, t = c :: r ∧ c ≠ 45 ∧ c ≠ 46 ∧ c ≠ 35 := by
  cases h with
  | eof r => exact ⟨_, _, rfl, by decide, by decide, by decide⟩
  | value d r _ => exact ⟨_, _, rfl, by decide, by decide, by decide⟩
  | flow c r _ h =>
    obtain ⟨_, _, h1, h2, _⟩ := isFlowIndicator_facts h
    refine ⟨_, _, rfl, h1, h2, ?_⟩
    rintro rfl
    exact absurd h (by decide)

theorem breaksOut_head {lb : Break} {bs r : Text} (h : bs ≠ []) (hb : ∀ b ∈ bs, keptBreak b) :
    ∃ c t, breaksOut lb bs ++ r = c :: t ∧ isBlank c = false ∧ isBreak c = true := by
  cases bs with
  | nil => exact absurd rfl h
  | cons b bs =>
    simp only [breaksOut, List.append_assoc]
    exact brkOut_head (hb b List.mem_cons_self) _

theorem isBreak_facts {c : Nat} (h : isBreak c = true) : isBlankz c = true ∧ isBlank c = false ∧ c ≠ 45 ∧ c ≠ 46 ∧ c ≠ 0 := by
  unfold isBreak at h
  simp only [Bool.or_eq_true, beq_iff_eq] at h
  rcases h with (((h | h) | h) | h) | h <;> subst h <;> decide

/-- The text at the end begins with a character at which the non-blank characters end. -/
theorem PlainEnd.head {flow : Bool} {indent : Int} {lb : Break} {rest fin : Text} {nl : Bool} (h : PlainEnd flow indent lb rest fin nl) :
    (PlainStop flow rest) ∨ (∃ c r, rest = c :: r ∧ isBlankz c = true ∧ c ≠ 45 ∧ c ≠ 46) := by
  cases h with
  | here t h => exact .inl h
  | spaces k t h1 h2 =>
    cases k with
    | zero => omega
    | succ k => exact .inr ⟨0x20, _, rfl, by decide, by decide, by decide⟩
  | line bs k t h1 h2 h3 h4 =>
    obtain ⟨c, r, e, _, hb⟩ := breaksOut_head (lb := lb) (r := List.replicate k 0x20 ++ fin) h1 h2
    exact .inr ⟨c, r, e, (isBreak_facts hb).1, (isBreak_facts hb).2.2.1, (isBreak_facts hb).2.2.2.1⟩

/-- Where the non-blank characters of a plain scalar end. -/
def CharsEnd (flow : Bool) (t : Text) : Prop := PlainStop flow t ∨ ∃ c r, t = c :: r ∧ isBlankz c = true

theorem lw_plainChars_end {start : Mark} {flow : Bool} {n : Nat} {s : Text} {g : Gap} {stop : Mark} {t : Text} (h : CharsEnd flow t) (hn : 0 < n)
    {Q : Text × Gap × Mark → Mark → Text → Prop} (hQ : Q (s, g, stop) m t) : lw (plainChars start flow n s g stop) Q m t := by
  cases n with
  | zero => omega
  | succ n =>
    unfold plainChars
    rcases h with h | ⟨c, r, rfl, hb⟩
    · cases h with
      | eof r => rw [lw_bind, lw_peek0, lw_ite, if_pos (by decide), lw_pure]; exact hQ
      | value d r hd =>
        rw [lw_bind, lw_peek0, lw_ite, if_neg (by decide), lw_ite, if_pos (by decide), lw_bind, lw_peek1 (by decide), lw_ite]
        have hf : isFlowIndicator d = false := by
          cases h : isFlowIndicator d with
          | false => rfl
          | true => rw [(isFlowIndicator_facts h).1] at hd; cases hd
        have hq : d ≠ 63 := by rintro rfl; exact absurd hd (by decide)
        rw [if_neg (by simp [hf, hq]), hd, lw_ite, if_pos rfl, lw_pure]
        exact hQ
      | flow c r hf hc =>
        obtain ⟨h1, h2, _⟩ := isFlowIndicator_facts hc
        rw [lw_bind, lw_peek0, h1, lw_ite, if_neg (by decide), lw_ite, if_neg (by simp [h2]), hf, hc, lw_ite, if_pos (by decide), lw_pure]
        exact hQ
    · rw [lw_bind, lw_peek0, hb, lw_ite, if_pos rfl, lw_pure]
      exact hQ

/-- The state after the non-blank characters: nothing changed, or all was joined. -/
def afterChars (ps : List Piece) (s : Text) (g : Gap) : Text × Gap :=
  if solid ps = [] then (s, g) else (joinGap s g ++ pValue (solid ps), {})

theorem joinGap_empty (s : Text) : joinGap s {} = s := by simp [joinGap]

theorem lw_plainChars {start : Mark} {flow : Bool} {indent : Int} {lb : Break} {ps : List Piece} {k n : Nat} {s rest : Text} {g : Gap} {stop : Mark}
    (hp : PlainPieces flow indent k ps) (hr : CharsEnd flow rest) (hn : (pText lb ps).length < n) {Q : Text × Gap × Mark → Mark → Text → Prop}
    (hQ : ∀ m' stop', m.column ≤ m'.column → Q ((afterChars ps s g).1, (afterChars ps s g).2, stop') m' (pText lb (afterSolid ps) ++ rest)) :
    lw (plainChars start flow n s g stop) Q m (pText lb ps ++ rest) := by
  induction ps generalizing k n s g stop m with
  | nil => exact lw_plainChars_end hr (by omega) (hQ m stop (Nat.le_refl _))
  | cons p ps ih =>
    cases n with
    | zero => omega
    | succ n =>
      cases p with
      | esc t c => exact hp.1.elim
      | sp =>
        exact lw_plainChars_end (.inr ⟨0x20, _, rfl, by decide⟩) (by omega) (hQ m stop (Nat.le_refl _))
      | gap bs j =>
        obtain ⟨⟨rfl, _, _, _⟩, _⟩ := hp
        obtain ⟨c, t, e, _, hb⟩ := breaksOut_head (lb := lb) (bs := [0xA]) (r := List.replicate j 0x20 ++ (pText lb ps ++ rest)) (by simp) (by simp [keptBreak])
        refine lw_plainChars_end (.inr ⟨c, t, ?_, (isBreak_facts hb).1⟩) (by omega) (hQ m stop (Nat.le_refl _))
        rw [← e]; simp [pText, Piece.text]
      | lit c =>
        obtain ⟨⟨h1, h2, h3, h4⟩, hps⟩ := hp
        have hlen : (pText lb ps).length < n := by
          simp only [pText, Piece.text, List.length_append, List.length_cons, List.length_nil] at hn; omega
        have main : lw (do
            let s ← readC (joinGap s g)
            let stop ← get
            cacheC 2
            plainChars start flow n s {} stop) Q m (c :: (pText lb ps ++ rest)) := by
          rw [lw_bind, lw_readC, lw_bind, lw_get, lw_bind, lw_cache2]
          refine ih hps hlen fun m' stop' hm => ?_
          have hm' : m.column ≤ m'.column := by have : m.column + 1 ≤ m'.column := hm; omega
          have := hQ m' stop' hm'
          have e1 : afterSolid (Piece.lit c :: ps) = afterSolid ps := rfl
          have e2 : afterChars (Piece.lit c :: ps) s g = afterChars ps (joinGap s g ++ [c]) {} := by
            unfold afterChars
            have : solid (Piece.lit c :: ps) = .lit c :: solid ps := rfl
            rw [this, if_neg (by simp), joinGap_empty]
            by_cases hs : solid ps = []
            · rw [if_pos hs, hs]; rfl
            · rw [if_neg hs]; simp [pValue, Piece.value]
          rw [e1, e2] at this
          exact this
        unfold plainChars
        simp only [pText, Piece.text, List.cons_append, List.nil_append]
        rw [lw_bind, lw_peek0, h1, lw_ite, if_neg (by decide), lw_ite]
        by_cases hc : c = 58
        · subst hc
          obtain ⟨d, qs, rfl⟩ := h4 rfl
          have hf : flow = false := by
            cases flow with
            | false => rfl
            | true => exact absurd rfl (h3 rfl).2
          subst hf
          simp only [pText, Piece.text, List.cons_append, List.nil_append] at main ⊢
          rw [if_pos (by decide), lw_bind, lw_peek1 (by decide), lw_ite, if_neg (by simp), hps.1.1, lw_ite, if_neg (by decide)]
          exact main
        · rw [if_neg (by simpa using hc), lw_ite]
          have hf : (flow && isFlowIndicator c) = false := by
            cases flow with
            | false => rfl
            | true => simp [(h3 rfl).1]
          rw [hf, if_neg (by decide)]
          exact main

/-! ### Blanks -/

theorem lw_plainBlanks_stop {start : Mark} {indent : Int} {n : Nat} {g : Gap} {rest : Text} (h : Stops rest) (hn : 0 < n) {Q : Gap → Mark → Text → Prop}
    (hQ : Q g m rest) : lw (plainBlanks start indent n g) Q m rest := by
  obtain ⟨c, t, rfl, h1, h2⟩ := h
  cases n with
  | zero => omega
  | succ n =>
    unfold plainBlanks
    rw [lw_bind, lw_peek0, h1, lw_ite, if_neg (by decide), h2, lw_ite, if_neg (by decide), lw_pure]
    exact hQ

theorem lw_plainBlanks_spaces {start : Mark} {indent : Int} {n k : Nat} {g : Gap} {rest : Text} (h : Stops rest) (hn : k < n) (hg : g.blanks = false)
    {Q : Gap → Mark → Text → Prop}
    (hQ : Q { g with white := g.white ++ List.replicate k 0x20 } { m with index := m.index + k, column := m.column + k } rest) :
    lw (plainBlanks start indent n g) Q m (List.replicate k 0x20 ++ rest) := by
  induction k generalizing n g m with
  | zero => exact lw_plainBlanks_stop h hn (by simpa using hQ)
  | succ k ih =>
    cases n with
    | zero => omega
    | succ n =>
      obtain ⟨gb, gw, gl, gt⟩ := g
      dsimp only at hg
      subst hg
      unfold plainBlanks
      rw [List.replicate_succ, List.cons_append, lw_bind, lw_peek0, lw_ite, if_pos (by decide), lw_ite, if_neg (by simp), lw_bind,
        lw_readC, lw_bind, lw_cache1]
      refine ih (n := n) (g := { white := gw ++ [0x20], leading := gl, trailing := gt }) (by omega) rfl ?_
      have e1 : m.index + 1 + k = m.index + (k + 1) := by omega
      have e2 : m.column + 1 + k = m.column + (k + 1) := by omega
      simpa only [e1, e2, List.append_assoc, List.singleton_append, ← List.replicate_succ] using hQ

theorem lw_plainBlanks_indent {start : Mark} {indent : Int} {n k : Nat} {g : Gap} {rest : Text} (h : Stops rest) (hn : k < n) (hg : g.blanks = true)
    {Q : Gap → Mark → Text → Prop} (hQ : Q g { m with index := m.index + k, column := m.column + k } rest) :
    lw (plainBlanks start indent n g) Q m (List.replicate k 0x20 ++ rest) := by
  induction k generalizing n m with
  | zero => exact lw_plainBlanks_stop h hn (by simpa using hQ)
  | succ k ih =>
    cases n with
    | zero => omega
    | succ n =>
      unfold plainBlanks
      rw [List.replicate_succ, List.cons_append, lw_bind, lw_peek0, lw_ite, if_pos (by decide), hg, lw_ite, if_pos rfl, lw_bind, lw_get, lw_ite,
        if_neg (by rintro ⟨_, hx⟩; exact absurd hx (by decide)), lw_bind, lw_skipC, lw_bind, lw_cache1]
      refine ih (n := n) (by omega) ?_
      have e1 : m.index + 1 + k = m.index + (k + 1) := by omega
      have e2 : m.column + 1 + k = m.column + (k + 1) := by omega
      simpa only [e1, e2] using hQ

/-- The text behind the line breaks cannot be taken for a part of them. -/
theorem stops_afterBreak {lb : Break} {k : Nat} {t : Text} (h : Stops t) : AfterBreak lb (List.replicate k 0x20 ++ t) := by
  cases k with
  | succ k => exact afterBreak_spaces (by omega)
  | zero =>
    obtain ⟨c, r, rfl, _, h2⟩ := h
    refine ⟨by simp, fun _ hx => ?_⟩
    simp only [List.replicate_zero, List.nil_append, List.head?_cons, Option.some.injEq] at hx
    subst hx
    exact absurd h2 (by decide)

theorem lw_plainBlanks_trailing {start : Mark} {indent : Int} {n k : Nat} {lb : Break} {bs : Text} {g : Gap} {rest : Text} (h : Stops rest)
    (hb : ∀ b ∈ bs, keptBreak b) (hn : (breaksOut lb bs).length + k < n) (hg : g.blanks = true) {Q : Gap → Mark → Text → Prop}
    (hQ : ∀ m' : Mark, m'.column = (if bs = [] then m.column + k else k) → Q { g with trailing := g.trailing ++ bs } m' rest) :
    lw (plainBlanks start indent n g) Q m (breaksOut lb bs ++ (List.replicate k 0x20 ++ rest)) := by
  induction bs generalizing n g m with
  | nil =>
    refine lw_plainBlanks_indent h (by simpa [breaksOut] using hn) hg ?_
    simpa using hQ { m with index := m.index + k, column := m.column + k } rfl
  | cons b bs ih =>
    have hb1 := hb b List.mem_cons_self
    have hb2 : ∀ b ∈ bs, keptBreak b := fun x hx => hb x (List.mem_cons_of_mem _ hx)
    simp only [breaksOut, List.length_append] at hn
    have := brkOut_length (lb := lb) (b := b)
    cases n with
    | zero => omega
    | succ n =>
      obtain ⟨gb, gw, gl, gt⟩ := g
      dsimp only at hg
      subst hg
      unfold plainBlanks
      simp only [breaksOut, List.append_assoc]
      obtain ⟨c, t, e, hc1, hc2⟩ := brkOut_head (lb := lb) hb1 (breaksOut lb bs ++ (List.replicate k 0x20 ++ rest))
      rw [e, lw_bind, lw_peek0, hc1, lw_ite, if_neg (by decide), hc2, lw_ite, if_pos rfl, lw_bind, lw_cache2, lw_ite, if_pos trivial, lw_bind, ← e]
      refine lw_readLine' hb1 (afterBreak_breaks hb2 (stops_afterBreak h)) fun j => ?_
      rw [lw_bind, lw_cache1]
      refine ih (n := n) (g := { blanks := true, white := gw, leading := gl, trailing := gt ++ [b] }) hb2 (by omega) rfl fun m' hm => ?_
      have := hQ m' (by
        rw [hm]
        simp)
      simpa only [List.append_assoc, List.singleton_append] using this

theorem lw_plainBlanks_gap {start : Mark} {indent : Int} {n k : Nat} {lb : Break} {bs : Text} {rest : Text} (h : Stops rest) (hne : bs ≠ [])
    (hb : ∀ b ∈ bs, keptBreak b) (hn : (breaksOut lb bs).length + k < n) {Q : Gap → Mark → Text → Prop}
    (hQ : ∀ (m' : Mark) (g : Gap), m'.column = k → g.blanks = true → (∀ s, joinGap s g = s ++ foldBreaks bs) → Q g m' rest) :
    lw (plainBlanks start indent n {}) Q m (breaksOut lb bs ++ (List.replicate k 0x20 ++ rest)) := by
  cases bs with
  | nil => exact absurd rfl hne
  | cons b bs =>
    have hb1 := hb b List.mem_cons_self
    have hb2 : ∀ b ∈ bs, keptBreak b := fun x hx => hb x (List.mem_cons_of_mem _ hx)
    simp only [breaksOut, List.length_append] at hn
    have := brkOut_length (lb := lb) (b := b)
    cases n with
    | zero => omega
    | succ n =>
      unfold plainBlanks
      simp only [breaksOut, List.append_assoc]
      obtain ⟨c, t, e, hc1, hc2⟩ := brkOut_head (lb := lb) hb1 (breaksOut lb bs ++ (List.replicate k 0x20 ++ rest))
      rw [e, lw_bind, lw_peek0, hc1, lw_ite, if_neg (by decide), hc2, lw_ite, if_pos rfl, lw_bind, lw_cache2, lw_ite, if_neg (by decide), lw_bind, ← e]
      refine lw_readLine' hb1 (afterBreak_breaks hb2 (stops_afterBreak h)) fun j => ?_
      rw [lw_bind, lw_cache1]
      refine lw_plainBlanks_trailing (n := n) h hb2 (by omega) rfl fun m' hm => hQ m' _ (by rw [hm]; simp) rfl fun s => ?_
      unfold joinGap foldBreaks
      simp only [if_true, List.nil_append, List.head?_cons]
      by_cases hl : b = 0xA
      · subst hl
        simp only [beq_self_eq_true, if_true]
        cases bs <;> simp
      · simp [hl]

/-! ### Document indicators at the beginning of a line -/

theorem lw_checkSeq {l pre cs : Text} {j : Nat} (hj : pre.length = j) (hp : ∀ x ∈ pre, x < 0x80) (hl : ∀ x ∈ l, x < 0x80 ∧ x ≠ 0)
    (hz : cs.getLast? = some 0) {Q : Bool → Mark → Text → Prop} (hQ : Q (l.isPrefixOf cs) m (pre ++ cs)) :
    lw (checkSeq j l) Q m (pre ++ cs) := by
  induction l generalizing pre cs j with
  | nil => unfold checkSeq; rw [lw_pure]; simpa using hQ
  | cons x l ih =>
    unfold checkSeq
    cases cs with
    | nil => cases hz
    | cons c r =>
      obtain ⟨hx1, hx2⟩ := hl x List.mem_cons_self
      rw [lw_bind, lw_peekAt hj hp, lw_ite]
      by_cases hc : c = x
      · subst hc
        rw [if_pos (by simp)]
        have e : pre ++ c :: r = (pre ++ [c]) ++ r := by simp
        rw [e] at hQ ⊢
        refine ih (by simp [hj]) ?_ (fun y hy => hl y (List.mem_cons_of_mem _ hy)) ?_ ?_
        · intro y hy
          rcases List.mem_append.mp hy with hy | hy
          · exact hp y hy
          · rw [List.mem_singleton.mp hy]; exact hx1
        · cases r with
          | nil => simp at hz; exact absurd hz hx2
          | cons d r => simpa using hz
        · simpa [List.isPrefixOf] using hQ
      · rw [if_neg (by simpa using hc), lw_pure]
        have hf : (x :: l).isPrefixOf (c :: r) = false := by
          simp [List.isPrefixOf, Ne.symm hc]
        rw [hf] at hQ
        exact hQ

/-- There is no document indicator here. -/
def NoDoc (cs : Text) : Prop := [45, 45, 45].isPrefixOf cs = false ∧ [46, 46, 46].isPrefixOf cs = false

theorem lw_docMark_false {c : Nat} {cs : Text} (hc : c < 0x80 ∧ c ≠ 0) (hz : cs.getLast? = some 0) (h : [c, c, c].isPrefixOf cs = false)
    {Q : Bool → Mark → Text → Prop} (hQ : Q false m cs) : lw (docMark c) Q m cs := by
  unfold docMark
  rw [lw_bind, lw_get, lw_ite]
  by_cases h0 : m.column = 0
  · rw [if_pos h0, lw_bind]
    refine lw_checkSeq (pre := []) rfl (by simp) ?_ hz ?_
    · intro x hx
      simp only [List.mem_cons, List.not_mem_nil, or_false] at hx
      rcases hx with rfl | rfl | rfl <;> exact hc
    · rw [h, lw_ite, if_neg (by decide), lw_pure]; exact hQ
  · rw [if_neg h0, lw_pure]; exact hQ

theorem lw_docIndicator_false {cs : Text} (hz : cs.getLast? = some 0) (h : m.column ≠ 0 ∨ NoDoc cs) {Q : Bool → Mark → Text → Prop} (hQ : Q false m cs) :
    lw docIndicator Q m cs := by
  rcases h with h | ⟨h1, h2⟩
  · rw [lw_docIndicator h]; exact hQ
  · unfold docIndicator
    rw [lw_bind]
    refine lw_docMark_false (by decide) hz h1 ?_
    rw [lw_ite, if_neg (by decide)]
    exact lw_docMark_false (by decide) hz h2 hQ

theorem lw_docIndicator_true {cs : Text} (hz : cs.getLast? = some 0) (h0 : m.column = 0) (h : DocLine cs) {Q : Bool → Mark → Text → Prop} (hQ : Q true m cs) :
    lw docIndicator Q m cs := by
  obtain ⟨d, r, hd, rfl | rfl⟩ := h
  · unfold docIndicator docMark
    rw [lw_bind, lw_bind, lw_get, lw_ite, if_pos h0, lw_bind]
    refine lw_checkSeq (pre := []) rfl (by simp) (by simp) hz ?_
    rw [show ([45, 45, 45] : Text).isPrefixOf (45 :: 45 :: 45 :: d :: r) = true by simp [List.isPrefixOf], lw_ite, if_pos rfl, lw_bind]
    refine (lw_peekAt (pre := [45, 45, 45]) rfl (by simp)).mpr ?_
    rw [lw_pure, hd, lw_ite, if_pos rfl, lw_pure]
    exact hQ
  · unfold docIndicator
    rw [lw_bind]
    refine lw_docMark_false (by decide) hz (by simp [List.isPrefixOf]) ?_
    rw [lw_ite, if_neg (by decide)]
    unfold docMark
    rw [lw_bind, lw_get, lw_ite, if_pos h0, lw_bind]
    refine lw_checkSeq (pre := []) rfl (by simp) (by simp) hz ?_
    rw [show ([46, 46, 46] : Text).isPrefixOf (46 :: 46 :: 46 :: d :: r) = true by simp [List.isPrefixOf], lw_ite, if_pos rfl, lw_bind]
    refine (lw_peekAt (pre := [46, 46, 46]) rfl (by simp)).mpr ?_
    rw [lw_pure, hd]
    exact hQ

/-! ### The body -/

theorem solid_nonempty {c : Nat} {ps : List Piece} : solid (.lit c :: ps) ≠ [] := by
  show Piece.lit c :: solid ps ≠ []
  simp

theorem plain_afterSolid {flow : Bool} {indent : Int} {k : Nat} {ps : List Piece} (h : PlainPieces flow indent k ps) (hk : k = 0 ∨ solid ps ≠ []) :
    PlainPieces flow indent 0 (afterSolid ps) := by
  induction ps generalizing k with
  | nil => rfl
  | cons p ps ih =>
    cases p with
    | esc t c => exact h.1.elim
    | lit c => exact ih h.2 (.inl rfl)
    | sp =>
      rcases hk with rfl | hk
      · exact h
      · exact absurd rfl hk
    | gap bs n =>
      rcases hk with rfl | hk
      · exact h
      · exact absurd rfl hk

/-- After blanks a plain scalar goes on with a character other than `#`. -/
theorem plain_after_blank {flow : Bool} {indent : Int} {k : Nat} {ps : List Piece} (h : PlainPieces flow indent k ps) (hk : k ≠ 0) (hns : spaceRun ps = 0) :
    ∃ c qs, ps = .lit c :: qs ∧ isBlankz c = false ∧ c ≠ 35 := by
  cases ps with
  | nil => exact absurd h hk
  | cons p ps =>
    cases p with
    | esc t c => exact h.1.elim
    | lit c => exact ⟨c, ps, rfl, h.1.1, h.1.2.1 hk⟩
    | sp => simp [spaceRun] at hns
    | gap bs n => exact absurd h.1.2.1 hk

theorem plain_spaceRun {flow : Bool} {indent : Int} {lb : Break} {ps : List Piece} {k : Nat} (h : PlainPieces flow indent k ps) :
    pText lb ps = List.replicate (spaceRun ps) 0x20 ++ pText lb (afterSpaces ps) ∧
    pValue ps = List.replicate (spaceRun ps) 0x20 ++ pValue (afterSpaces ps) ∧ spaceRun (afterSpaces ps) = 0 ∧
    (0 < spaceRun ps → PlainPieces flow indent 1 (afterSpaces ps)) := by
  induction ps generalizing k with
  | nil => exact ⟨rfl, rfl, rfl, fun h => by simp [spaceRun] at h⟩
  | cons p ps ih =>
    cases p with
    | sp =>
      obtain ⟨h1, h2, h3, h4⟩ := ih h.2
      refine ⟨?_, ?_, h3, fun _ => ?_⟩
      · simp only [pText, Piece.text, spaceRun, afterSpaces, List.replicate_succ, List.cons_append, List.nil_append]; rw [h1]
      · simp only [pValue, Piece.value, spaceRun, afterSpaces, List.replicate_succ, List.cons_append, List.nil_append]; rw [h2]
      · by_cases h0 : 0 < spaceRun ps
        · exact h4 h0
        · have e : afterSpaces ps = ps := by
            cases ps with
            | nil => rfl
            | cons q qs => cases q <;> first | rfl | (simp [spaceRun] at h0)
          show PlainPieces flow indent 1 (afterSpaces ps)
          rw [e]
          exact h.2
    | lit c => exact ⟨rfl, rfl, rfl, fun h => by simp [spaceRun] at h⟩
    | esc t c => exact h.1.elim
    | gap bs n => exact ⟨rfl, rfl, rfl, fun h => by simp [spaceRun] at h⟩

theorem getLast_append {a b : Text} (h : b.getLast? = some 0) : (a ++ b).getLast? = some 0 := by
  rw [List.getLast?_append, h]; rfl

theorem lw_plainBody {start : Mark} {flow : Bool} {indent : Int} {lb : Break} {f n c : Nat} {ps : List Piece} {k : Nat} {s rest fin : Text} {g : Gap}
    {stop : Mark} {nl : Bool} (hp : PlainPieces flow indent k (.lit c :: ps)) (hc : c ≠ 35) (hr : PlainEnd flow indent lb rest fin nl)
    (hz : rest.getLast? = some 0) (hf : (pText lb (.lit c :: ps) ++ rest).length < f) (hn : (pText lb (.lit c :: ps)).length + 1 < n)
    (hd : m.column ≠ 0 ∨ NoDoc (pText lb (.lit c :: ps) ++ rest)) (hi : flow = false → indent ≤ m.column + 1) {Q : Text × Gap × Mark → Mark → Text → Prop}
    (hQ : ∀ m' g' stop', g'.blanks = nl → Q (joinGap s g ++ pValue (.lit c :: ps), g', stop') m' fin) :
    lw (plainBody f start flow indent n s g stop) Q m (pText lb (.lit c :: ps) ++ rest) := by
  induction n generalizing ps c k s g stop m with
  | zero => omega
  | succ n ih =>
    unfold plainBody
    rw [lw_bind, lw_cache4, lw_bind]
    refine lw_docIndicator_false (getLast_append hz) hd ?_
    rw [lw_ite, if_neg (by decide), lw_bind]
    have e0 : pText lb (.lit c :: ps) ++ rest = c :: (pText lb ps ++ rest) := rfl
    rw [e0, lw_peek0, lw_ite, if_neg (by simpa using hc), lw_bind, ← e0]
    rw [List.length_append] at hf
    have hce : CharsEnd flow rest := by
      rcases hr.head with h | ⟨x, r, e, hb, _⟩
      · exact .inl h
      · exact .inr ⟨x, r, e, hb⟩
    refine lw_plainChars hp hce (by omega) fun m1 stop1 hm1 => ?_
    have e1 : afterChars (.lit c :: ps) s g = (joinGap s g ++ pValue (solid (.lit c :: ps)), {}) := by
      unfold afterChars; rw [if_neg solid_nonempty]
    rw [e1]
    simp only []
    have hvs := solid_value (ps := .lit c :: ps)
    have hp1 := plain_afterSolid hp (.inr solid_nonempty)
    have hl1 : (pText lb (afterSolid (.lit c :: ps))).length + 1 ≤ (pText lb (.lit c :: ps)).length := by
      have := afterSolid_text_le (lb := lb) (ps := ps)
      have e : afterSolid (.lit c :: ps) = afterSolid ps := rfl
      rw [e]
      simp only [pText, Piece.text, List.length_append, List.length_cons, List.length_nil]
      omega
    rw [lw_bind]
    cases hps : afterSolid (.lit c :: ps) with
    | nil =>
      rw [hps] at hvs
      simp only [pValue, List.append_nil] at hvs
      rw [hvs]
      simp only [pText, List.nil_append]
      cases hr with
      | here t hst =>
        obtain ⟨x, r, e, hb1, hb2⟩ := hst.stops
        rw [e, lw_peek0, hb1, hb2, lw_ite, if_neg (by decide), lw_pure]
        rw [← e]
        exact hQ _ _ _ rfl
      | spaces j t hj hend =>
        have hfl : j + fin.length < f := by
          simp only [List.length_append, List.length_replicate] at hf; omega
        obtain ⟨j, rfl⟩ : ∃ i, j = i + 1 := ⟨j - 1, by omega⟩
        have hst := hend.stops
        have hzf : fin.getLast? = some 0 := by
          have := hz
          rw [List.getLast?_append] at this
          cases hx : fin.getLast? with
          | none =>
            rw [List.getLast?_eq_none_iff] at hx
            obtain ⟨_, _, e, _⟩ := hst
            rw [hx] at e; cases e
          | some y => rw [hx] at this; simpa using this
        have e : List.replicate (j + 1) 0x20 ++ fin = 0x20 :: (List.replicate j 0x20 ++ fin) := rfl
        rw [e, lw_peek0, lw_ite, if_pos (by decide), lw_bind, lw_cache1, lw_bind, ← e]
        refine lw_plainBlanks_spaces hst (by omega) rfl ?_
        rw [lw_bind, lw_get, lw_ite]
        have hcond : (!flow && decide (((m1.column + (j + 1) : Nat) : Int) < indent)) = false := by
          cases flow with
          | true => rfl
          | false =>
            have := hi rfl
            simp only [Bool.not_false, Bool.true_and, decide_eq_false_iff_not]
            omega
        rw [if_neg (by simp only [hcond]; decide)]
        cases n with
        | zero => omega
        | succ n =>
          unfold plainBody
          rw [lw_bind, lw_cache4, lw_bind]
          obtain ⟨y, r2, e2, hy1, hy2, hy3⟩ := hend.head
          refine lw_docIndicator_false hzf (.inr ?_) ?_
          · rw [e2]
            exact ⟨by simp [List.isPrefixOf, Ne.symm hy1], by simp [List.isPrefixOf, Ne.symm hy2]⟩
          · rw [lw_ite, if_neg (by decide), lw_bind, e2, lw_peek0, lw_ite, if_neg (by simpa using hy3), lw_bind, ← e2]
            refine lw_plainChars_end (.inl hend) (by omega) ?_
            simp only []
            obtain ⟨z, r3, e3, hz1, hz2⟩ := hst
            rw [lw_bind, e3, lw_peek0, hz1, hz2, lw_ite, if_neg (by decide), lw_pure, ← e3]
            exact hQ _ _ _ rfl
      | line bs j t hne hbs hst hend =>
        obtain ⟨x, r, e, hb1, hb2⟩ := breaksOut_head (lb := lb) (r := List.replicate j 0x20 ++ fin) hne hbs
        have hfl : (breaksOut lb bs).length + j + fin.length < f := by
          simp only [List.length_append, List.length_replicate] at hf; omega
        rw [e, lw_peek0, hb1, hb2, lw_ite, if_pos (by decide), lw_bind, lw_cache1, lw_bind, ← e]
        refine lw_plainBlanks_gap hst hne hbs (by omega) fun m2 g2 hm2 hg2 _ => ?_
        rw [lw_bind, lw_get, lw_ite]
        by_cases hlt : (flow = false ∧ (j : Int) < indent)
        · rw [if_pos (by rw [hm2]; simp [hlt.1, hlt.2]), lw_pure]
          exact hQ _ _ _ hg2
        · have hcond : (!flow && decide ((m2.column : Int) < indent)) = false := by
            rw [hm2]
            cases flow with
            | true => rfl
            | false =>
              have : ¬ (j : Int) < indent := fun h => hlt ⟨rfl, h⟩
              simp [this]
          rw [hcond, if_neg (by decide)]
          cases n with
          | zero => omega
          | succ n =>
            have hzf : fin.getLast? = some 0 := by
              have := hz
              rw [← List.append_assoc, List.getLast?_append] at this
              cases hx : fin.getLast? with
              | none =>
                rw [List.getLast?_eq_none_iff] at hx
                obtain ⟨_, _, e, _⟩ := hst
                rw [hx] at e; cases e
              | some y => rw [hx] at this; simpa using this
            unfold plainBody
            rw [lw_bind, lw_cache4, lw_bind]
            rcases hend with hend | hend | ⟨h0, hdoc⟩
            · obtain ⟨y, r2, e2, hy1, hy2, hy3⟩ := hend.head
              refine lw_docIndicator_false hzf (.inr ?_) ?_
              · rw [e2]
                exact ⟨by simp [List.isPrefixOf, Ne.symm hy1], by simp [List.isPrefixOf, Ne.symm hy2]⟩
              · rw [lw_ite, if_neg (by decide), lw_bind, e2, lw_peek0, lw_ite, if_neg (by simpa using hy3), lw_bind, ← e2]
                refine lw_plainChars_end (.inl hend) (by omega) ?_
                simp only []
                obtain ⟨z, r3, e3, hz1, hz2⟩ := hst
                rw [lw_bind, e3, lw_peek0, hz1, hz2, lw_ite, if_neg (by decide), lw_pure, ← e3]
                exact hQ _ _ _ hg2
            · exact absurd hend hlt
            · refine lw_docIndicator_true hzf (by omega) hdoc ?_
              rw [lw_ite, if_pos rfl, lw_pure]
              exact hQ _ _ _ hg2
    | cons p qs =>
      rw [hps] at hp1 hl1 hvs
      cases p with
      | lit d => exact absurd rfl (afterSolid_kind hps)
      | esc t d => exact hp1.1.elim
      | sp =>
        obtain ⟨h1, h2, h3, h4⟩ := plain_spaceRun (lb := lb) hp1
        have hsr : 0 < spaceRun (Piece.sp :: qs) := by simp [spaceRun]
        have hlen : (pText lb (Piece.sp :: qs)).length = spaceRun (Piece.sp :: qs) + (pText lb (afterSpaces (Piece.sp :: qs))).length := by
          rw [h1]; simp
        have h4 := h4 hsr
        generalize hq : afterSpaces (Piece.sp :: qs) = ws at h1 h2 h3 h4 hlen
        obtain ⟨d, xs, rfl, hd1, hd2⟩ := plain_after_blank h4 (by decide) h3
        have hst : Stops (pText lb (.lit d :: xs) ++ rest) := by
          unfold isBlankz isBreakz at hd1
          simp only [Bool.or_eq_false_iff] at hd1
          exact ⟨d, _, rfl, hd1.1, hd1.2.1⟩
        have e2 : pText lb (Piece.sp :: qs) ++ rest = List.replicate (spaceRun (Piece.sp :: qs)) 0x20 ++ (pText lb (.lit d :: xs) ++ rest) := by
          rw [h1, List.append_assoc]
        have e3 : pText lb (Piece.sp :: qs) ++ rest = 0x20 :: (pText lb qs ++ rest) := rfl
        rw [e3, lw_peek0, lw_ite, if_pos (by decide), lw_bind, lw_cache1, lw_bind, ← e3, e2]
        refine lw_plainBlanks_spaces hst (by omega) rfl ?_
        rw [lw_bind, lw_get, lw_ite]
        have fin1 : ∀ q : Mark, q.column ≠ 0 → (flow = false → indent ≤ q.column) → lw (plainBody f start flow indent n (joinGap s g ++ pValue (solid (.lit c :: ps)))
            { ({} : Gap) with white := ({} : Gap).white ++ List.replicate (spaceRun (Piece.sp :: qs)) 0x20 } stop1) Q q (pText lb (.lit d :: xs) ++ rest) := by
          intro q hq0 hqi
          refine ih h4 hd2 ?_ (by omega) (.inl hq0) (fun h => by have := hqi h; omega) fun m' g' stop' hg' => ?_
          · rw [List.length_append]; omega
          · have := hQ m' g' stop' hg'
            rw [← hvs, h2] at this
            simpa [joinGap] using this
        have hcol : m1.column + spaceRun (Piece.sp :: qs) ≠ 0 := by omega
        have hind : flow = false → indent ≤ ((m1.column + spaceRun (Piece.sp :: qs) : Nat) : Int) := fun h => by
          have := hi h; omega
        have hcond : (!flow && decide (((m1.column + spaceRun (Piece.sp :: qs) : Nat) : Int) < indent)) = false := by
          cases flow with
          | true => rfl
          | false =>
            have := hind rfl
            simp only [Bool.not_false, Bool.true_and, decide_eq_false_iff_not]
            omega
        rw [if_neg (by simp only [hcond]; decide)]
        exact fin1 _ hcol hind
      | gap bs j =>
        obtain ⟨⟨rfl, _, hj1, hj2⟩, hqs⟩ := hp1
        have hsr : spaceRun qs = 0 := by
          cases qs with
          | nil => rfl
          | cons q qs =>
            cases q with
            | sp => exact absurd rfl hqs.1
            | _ => rfl
        obtain ⟨d, xs, rfl, hd1, hd2⟩ := plain_after_blank hqs (by simp [Piece.kind]) hsr
        have hst : Stops (pText lb (.lit d :: xs) ++ rest) := by
          unfold isBlankz isBreakz at hd1
          simp only [Bool.or_eq_false_iff] at hd1
          exact ⟨d, _, rfl, hd1.1, hd1.2.1⟩
        have e2 : pText lb (Piece.gap [0xA] j :: .lit d :: xs) ++ rest =
            breaksOut lb [0xA] ++ (List.replicate j 0x20 ++ (pText lb (.lit d :: xs) ++ rest)) := by
          simp [pText, Piece.text]
        have hlen : (pText lb (Piece.gap [0xA] j :: .lit d :: xs)).length =
            (breaksOut lb [0xA]).length + j + (pText lb (.lit d :: xs)).length := by
          simp [pText, Piece.text]; omega
        obtain ⟨x, r, e, hb1, hb2⟩ := breaksOut_head (lb := lb) (bs := [0xA]) (r := List.replicate j 0x20 ++ (pText lb (.lit d :: xs) ++ rest))
          (by simp) (by simp [keptBreak])
        rw [e2, e, lw_peek0, hb1, hb2, lw_ite, if_pos (by decide), lw_bind, lw_cache1, lw_bind, ← e]
        refine lw_plainBlanks_gap hst (by simp) (by simp [keptBreak]) (by omega) fun m2 g2 hm2 hg2 hg3 => ?_
        rw [lw_bind, lw_get, lw_ite]
        have hcond : (!flow && decide ((m2.column : Int) < indent)) = false := by
          rw [hm2]
          cases flow with
          | true => rfl
          | false =>
            simp only [Bool.not_false, Bool.true_and, decide_eq_false_iff_not]
            omega
        rw [hcond, if_neg (by decide)]
        refine ih hqs hd2 ?_ (by omega) (.inl (by omega)) (fun _ => by omega) fun m' g' stop' hg' => ?_
        · rw [List.length_append]; omega
        · have := hQ m' g' stop' hg'
          rw [← hvs] at this
          rw [hg3]
          simpa [pValue, Piece.value] using this

theorem PlainEnd.first {flow : Bool} {indent : Int} {lb : Break} {rest fin : Text} {nl : Bool} (h : PlainEnd flow indent lb rest fin nl) :
    ∃ c r, rest = c :: r ∧ c ≠ 45 ∧ c ≠ 46 := by
  rcases h.head with h | ⟨c, r, e, _, h1, h2⟩
  · obtain ⟨c, r, e, h1, h2, _⟩ := h.head
    exact ⟨c, r, e, h1, h2⟩
  · exact ⟨c, r, e, h1, h2⟩

/-- A run of one character at the start of the text is a run in the value. -/
theorem prefix_of_text {flow : Bool} {indent : Int} {lb : Break} {rest : Text} {x : Nat} {n k : Nat} {ps : List Piece}
    (hx : isBlankz x = false) (hr : ∃ c r, rest = c :: r ∧ c ≠ x) (hp : PlainPieces flow indent k ps)
    (h : (List.replicate n x).isPrefixOf (pText lb ps ++ rest) = true) : (List.replicate n x).isPrefixOf (pValue ps) = true := by
  induction n generalizing ps k with
  | zero => rfl
  | succ n ih =>
    rw [List.replicate_succ] at h ⊢
    cases ps with
    | nil =>
      obtain ⟨c, r, rfl, hc⟩ := hr
      simp only [pText, List.nil_append, List.isPrefixOf, Bool.and_eq_true, beq_iff_eq] at h
      exact absurd h.1.symm hc
    | cons p ps =>
      cases p with
      | esc t c => exact hp.1.elim
      | lit c =>
        simp only [pText, pValue, Piece.text, Piece.value, List.cons_append, List.nil_append, List.isPrefixOf, Bool.and_eq_true] at h ⊢
        exact ⟨h.1, ih hp.2 h.2⟩
      | sp =>
        simp only [pText, Piece.text, List.cons_append, List.nil_append, List.isPrefixOf, Bool.and_eq_true, beq_iff_eq] at h
        rw [h.1] at hx
        exact absurd hx (by decide)
      | gap bs j =>
        obtain ⟨⟨rfl, _⟩, _⟩ := hp
        obtain ⟨c, t, e, _, hb⟩ := breaksOut_head (lb := lb) (bs := [0xA]) (r := List.replicate j 0x20 ++ (pText lb ps ++ rest)) (by simp) (by simp [keptBreak])
        have e2 : pText lb (Piece.gap [0xA] j :: ps) ++ rest = c :: t := by rw [← e]; simp [pText, Piece.text]
        rw [e2] at h
        simp only [List.isPrefixOf, Bool.and_eq_true, beq_iff_eq] at h
        rw [h.1, (isBreak_facts hb).1] at hx
        cases hx

theorem noDoc_text {flow : Bool} {indent : Int} {lb : Break} {rest fin : Text} {nl : Bool} {ps : List Piece} (hr : PlainEnd flow indent lb rest fin nl)
    (hp : PlainPieces flow indent 0 ps) (h : ([45, 45, 45].isPrefixOf (pValue ps) || [46, 46, 46].isPrefixOf (pValue ps)) = false) :
    NoDoc (pText lb ps ++ rest) := by
  obtain ⟨c, r, e, h1, h2⟩ := hr.first
  simp only [Bool.or_eq_false_iff] at h
  constructor
  · cases hx : ([45, 45, 45] : Text).isPrefixOf (pText lb ps ++ rest) with
    | false => rfl
    | true =>
      have := prefix_of_text (n := 3) (x := 45) (by decide) ⟨c, r, e, h1⟩ hp hx
      exact absurd (h.1.symm.trans this) (by decide)
  · cases hx : ([46, 46, 46] : Text).isPrefixOf (pText lb ps ++ rest) with
    | false => rfl
    | true =>
      have := prefix_of_text (n := 3) (x := 46) (by decide) ⟨c, r, e, h2⟩ hp hx
      exact absurd (h.2.symm.trans this) (by decide)

theorem lw_scanPlainScalar {flow : Bool} {pi : Int} {lb : Break} {f c : Nat} {ps : List Piece} {rest fin : Text} {nl : Bool}
    (hp : PlainPieces flow (pi + 1) 0 (.lit c :: ps)) (hc : c ≠ 35) (hr : PlainEnd flow (pi + 1) lb rest fin nl)
    (hz : rest.getLast? = some 0) (hf : (pText lb (.lit c :: ps) ++ rest).length < f)
    (hd : m.column ≠ 0 ∨ NoDoc (pText lb (.lit c :: ps) ++ rest)) (hi : flow = false → pi ≤ m.column) :
    lw (scanPlainScalar f pi flow) (fun r _ cs => r.1.data = .scalar (pValue (.lit c :: ps)) .plain ∧ r.2 = nl ∧ cs = fin) m
      (pText lb (.lit c :: ps) ++ rest) := by
  unfold scanPlainScalar
  rw [lw_bind, lw_get, lw_bind]
  have hlen : (pText lb (.lit c :: ps)).length + 1 < f := by
    rw [List.length_append] at hf
    have : rest ≠ [] := by rintro rfl; cases hz
    have : rest.length ≠ 0 := by simpa using this
    omega
  refine lw_plainBody hp hc hr hz hf hlen hd (fun h => by have := hi h; omega) fun m' g' stop' hg => ?_
  rw [lw_pure]
  exact ⟨by simp [joinGap], hg, rfl⟩

end LibYaml
