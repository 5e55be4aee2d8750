import Verif.Proofs.Dispatch
import Verif.Proofs.SingleWrite
import Verif.Proofs.PlainWrite

/-!
# C43-C45: scalars survive writing and scanning

`lead s` is the space that separates a scalar from what stands before it. `Reads flow pi m cs style v fin`: where the remaining
characters are `cs`, `yaml_parser_fetch_next_token` recognises a scalar of the given style and the scanner function for it returns the
text `v` and leaves the characters `fin`. Here `pi` is `parser->indent` and `flow` says whether the scanner is in a flow collection.
-/

namespace LibYaml

open Spec

/-- The scanner function called for a kind of scalar. -/
def scanKind (f : Nat) (pi : Int) (flow : Bool) : Kind → Lex Token
  | .block l => scanBlockScalar f pi l
  | .quoted s => scanFlowScalar f s
  | .plain => do let (t, _) ← scanPlainScalar f pi flow; pure t
  | _ => fun _ => .fail .ub

/-- The scanner reads a scalar `v` of the given style from the characters `cs` and leaves `fin`. -/
def Reads (flow : Bool) (pi : Int) (m : Mark) (cs : Text) (style : ScalarStyle) (v fin : Text) : Prop :=
  ∀ T i f, At T none m i → Has 4 i → i.cs = cs → cs.length < f →
    ∃ kind tok m' i', (dispatch flow m).run i = .ok ((kind, m), i) ∧ (scanKind f pi flow kind m).run i = .ok ((tok, m'), i') ∧
      tok.data = .scalar v style ∧ i'.cs = fin ∧ At T none m' i'

/-- A program that is safe and succeeds on the characters alone succeeds. -/
theorem run_of_lw {α : Type} {p : Lex α} {m : Mark} {i : In} {R : Mark → In → Prop} {Q : α → Mark → Text → Prop} (hb : i.bad = none)
    (hs : pw p (fun _ m' i' => R m' i') Fail.reported m i) (hl : lw p Q m i.cs) :
    ∃ a m' i', (p m).run i = .ok ((a, m'), i') ∧ Q a m' i'.cs ∧ R m' i' := by
  unfold pw at hs
  have hub : (p m).run i ≠ .error .ub := by
    intro h
    rw [h] at hs
    exact hs.elim
  have hg := go_of_run (p m) i hb hub
  rw [lw_iff] at hl
  obtain ⟨a, m', cs', h1, h2⟩ := hl
  rw [h1] at hg
  cases hr : (p m).run i with
  | error e => rw [hr] at hg; cases hg
  | ok x =>
    obtain ⟨⟨b, m2⟩, i2⟩ := x
    rw [hr] at hg hs
    cases hg
    exact ⟨_, _, i2, rfl, h2, hs⟩

theorem badOk_none : BadOk none := fun _ h => by cases h

/-- The kind of token that starts with a quote. -/
theorem lw_dispatch_quote {flow single : Bool} {m : Mark} {r : Text} (hz : (quoteC single :: r).getLast? = some 0) :
    lw (dispatch flow) (fun k m' cs => k = .quoted single ∧ m' = m ∧ cs = quoteC single :: r) m (quoteC single :: r) := by
  unfold dispatch
  rw [lw_bind, lw_peek0, lw_bind, lw_get]
  cases single with
  | true =>
    rw [lw_ite, if_neg (by decide), lw_ite, if_neg (by rintro ⟨_, h⟩; exact absurd h (by decide)), lw_bind]
    refine lw_docMark_false (by decide) hz (by simp [List.isPrefixOf, quoteC]) ?_
    rw [lw_ite, if_neg (by decide), lw_bind]
    refine lw_docMark_false (by decide) hz (by simp [List.isPrefixOf, quoteC]) ?_
    rw [lw_ite, if_neg (by decide)]
    cases flow <;> exact ⟨rfl, rfl, rfl⟩
  | false =>
    rw [lw_ite, if_neg (by decide), lw_ite, if_neg (by rintro ⟨_, h⟩; exact absurd h (by decide)), lw_bind]
    refine lw_docMark_false (by decide) hz (by simp [List.isPrefixOf, quoteC]) ?_
    rw [lw_ite, if_neg (by decide), lw_bind]
    refine lw_docMark_false (by decide) hz (by simp [List.isPrefixOf, quoteC]) ?_
    rw [lw_ite, if_neg (by decide)]
    cases flow <;> exact ⟨rfl, rfl, rfl⟩

theorem reads_quoted {flow single : Bool} {pi : Int} {m : Mark} {ps : List Piece} {lb : Break} {rest : Text} (hp : Pieces single 0 ps)
    (hr : QuoteEnd single rest) : Reads flow pi m (quoteC single :: (pText lb ps ++ quoteC single :: rest))
      (if single = true then .single else .double) (pValue ps) rest := by
  intro T i f ha hh hcs hf
  have hz := ha.ends rfl
  rw [hcs] at hz
  have hq : isBreak (quoteC single) = false := by cases single <;> rfl
  have hd := run_of_lw (p := dispatch flow) (R := fun _ i' => i' = i) ha.bad (pw_dispatch ha hh (fun c r h => by rw [hcs] at h; cases h; exact hq) fun _ _ => rfl)
    (by rw [hcs]; exact lw_dispatch_quote hz)
  obtain ⟨k, m1, i1, d1, ⟨hk, hm1, _⟩, hi1⟩ := hd
  rw [hk, hm1, hi1] at d1
  have hlen : (pText lb ps).length < f := by
    simp only [List.length_cons, List.length_append] at hf; omega
  have hs := run_of_lw (p := scanFlowScalar f single) (R := fun m' i' => At T none m' i') ha.bad
    (pw_reported (safe_scanFlowScalar badOk_none ha (hh.mono (by omega)) hcs (by cases single <;> simp [quoteC]) (by rw [hcs]; exact hf)
      fun _ _ _ h _ _ _ => h))
    (by rw [hcs]; exact lw_scanFlowScalar hp hr hlen)
  obtain ⟨t, m2, i2, s1, ⟨s2, s3⟩, s4⟩ := hs
  refine ⟨_, t, m2, i2, d1, s1, ?_, s3, s4⟩
  rw [s2]

/-- What `tw` says about the result. -/
theorem tw_out {α : Type} {p : EM α} {Q : α → Text → Emitter → Prop} {s : Emitter} (h : tw p Q s) :
    ∃ a, (p s).val = .ok a ∧ Q a (p s).text (p s).st := by
  unfold tw at h
  split at h
  · exact ⟨_, by assumption, h⟩
  · exact h.elim

/-- **C43 (double-quoted scalars round-trip).** Whatever the settings, the column, the width and the positions where lines may be
folded, the text that `yaml_emitter_write_double_quoted_scalar` writes for any Unicode text is scanned back as a double-quoted scalar
with exactly this text, whatever follows it, in every context. -/
theorem C43_double_quoted_round_trip {s : Emitter} {lb : Break} (hl : s.lineBreak = some lb) (hi : 1 ≤ s.indentCol) (v : Text)
    (hv : ∀ c ∈ v, UScalar c) (allowBreaks : Bool) :
    (writeDouble v allowBreaks s).val = .ok () ∧
    ∃ body, (writeDouble v allowBreaks s).text = lead s ++ body ∧
      ∀ flow pi m rest, Reads flow pi m (body ++ rest) .double v rest := by
  obtain ⟨_, h1, ps, h2, h3, h4⟩ := tw_out (tw_writeDouble (ab := allowBreaks) hl hi hv)
  refine ⟨h1, _, h4, fun flow pi m rest => ?_⟩
  have := reads_quoted (flow := flow) (pi := pi) (m := m) (lb := lb) (rest := rest) h2 (fun h => by cases h)
  rw [h3] at this
  simpa [quoteC] using this

/-- **C44 (single-quoted scalars round-trip).** Text that the analysis allows in single quotes is scanned back as it was, if no quote
follows. -/
theorem C44_single_quoted_round_trip {s : Emitter} {lb : Break} (hl : s.lineBreak = some lb) (hi : 1 ≤ s.indentCol) (unicode : Bool) (v : Text)
    (hv : (analyzeScalarData unicode v).singleQuotedAllowed = true) (allowBreaks : Bool) :
    (writeSingle v allowBreaks s).val = .ok () ∧
    ∃ body, (writeSingle v allowBreaks s).text = lead s ++ body ∧
      ∀ flow pi m rest, rest ≠ [] → rest.head? ≠ some 39 → Reads flow pi m (body ++ rest) .single v rest := by
  obtain ⟨hp, hadj⟩ := single_allowed hv
  obtain ⟨_, h1, ps, h2, h3, h4⟩ := tw_out (tw_writeSingle (ab := allowBreaks) hl hi (fun c hc => (hp c hc).1) hadj)
  refine ⟨h1, _, h4, fun flow pi m rest r1 r2 => ?_⟩
  have := reads_quoted (flow := flow) (pi := pi) (m := m) (lb := lb) (rest := rest) h2 (fun _ => ⟨r1, r2⟩)
  rw [h3] at this
  simpa [quoteC] using this

/-- The kind of token that a plain scalar starts with. -/
theorem lw_dispatch_plain {flow : Bool} {m : Mark} {c : Nat} {cs : Text} {r : Text} (hz : (c :: r).getLast? = some 0) (hf : PlainFirst flow c cs)
    (hc : isBlankz c = false) (hn : c = 63 ∨ c = 58 ∨ c = 45 → ∃ d r', r = d :: r' ∧ isBlankz d = false) (hd : m.column ≠ 0 ∨ NoDoc (c :: r)) :
    lw (dispatch flow) (fun k m' cs => k = .plain ∧ m' = m ∧ cs = c :: r) m (c :: r) := by
  have hs := hf.start
  unfold startIndicator at hs
  simp only [Bool.or_eq_false_iff, beq_eq_false_iff_ne] at hs
  have hc0 : c ≠ 0 := by rintro rfl; exact absurd hc (by decide)
  unfold dispatch
  rw [lw_bind, lw_peek0, lw_bind, lw_get, lw_ite, if_neg (by simpa [isZ] using hc0), lw_ite, if_neg (by rintro ⟨_, h⟩; omega), lw_bind]
  have hdoc : ∀ x, x = 45 ∨ x = 46 → ∀ Q : Bool → Mark → Text → Prop, Q false m (c :: r) → lw (docMark x) Q m (c :: r) := by
    intro x hx Q hQ
    rcases hd with h | ⟨h1, h2⟩
    · unfold docMark
      rw [lw_bind, lw_get, lw_ite, if_neg h, lw_pure]; exact hQ
    · rcases hx with rfl | rfl
      · exact lw_docMark_false (by decide) hz h1 hQ
      · exact lw_docMark_false (by decide) hz h2 hQ
  refine hdoc _ (.inl rfl) _ ?_
  rw [lw_ite, if_neg (by decide), lw_bind]
  refine hdoc _ (.inr rfl) _ ?_
  rw [lw_ite, if_neg (by decide)]
  unfold dispatchChar
  have step : ∀ {x : Nat} {p q : Lex Kind} {Q}, c ≠ x → lw q Q m (c :: r) → lw (if c = x then p else q) Q m (c :: r) := by
    intro x p q Q h1 h2
    rw [lw_ite, if_neg h1]; exact h2
  refine step (by omega) (step (by omega) (step (by omega) (step (by omega) (step (by omega) ?_))))
  rw [lw_ite]
  by_cases h45 : c = 45
  · obtain ⟨d, r', rfl, hb⟩ := hn (.inr (.inr h45))
    subst h45
    rw [if_pos rfl, lw_bind, lw_peek1 (by decide), hb, if_neg (by decide), lw_pure]
    exact ⟨rfl, rfl, rfl⟩
  rw [if_neg h45, lw_ite]
  by_cases h63 : c = 63
  · obtain ⟨d, r', rfl, hb⟩ := hn (.inl h63)
    subst h63
    have : flow = false := by
      cases flow with
      | false => rfl
      | true => exact absurd rfl (hf.flow rfl).1
    subst this
    rw [if_pos rfl, lw_ite, if_neg (by decide), lw_bind, lw_peek1 (by decide), hb, if_neg (by decide), lw_pure]
    exact ⟨rfl, rfl, rfl⟩
  rw [if_neg h63, lw_ite]
  by_cases h58 : c = 58
  · obtain ⟨d, r', rfl, hb⟩ := hn (.inr (.inl h58))
    subst h58
    have : flow = false := by
      cases flow with
      | false => rfl
      | true => exact absurd rfl (hf.flow rfl).2
    subst this
    rw [if_pos rfl, lw_ite, if_neg (by decide), lw_bind, lw_peek1 (by decide), hb, if_neg (by decide), lw_pure]
    exact ⟨rfl, rfl, rfl⟩
  rw [if_neg h58]
  refine step (by omega) (step (by omega) (step (by omega) ?_))
  rw [lw_ite, if_neg (by rintro ⟨h, _⟩; omega), lw_ite, if_neg (by rintro ⟨h, _⟩; omega)]
  refine step (by omega) (step (by omega) ?_)
  have hi : isIndicator c = false := by
    unfold isIndicator
    simp only [Bool.or_eq_false_iff, beq_eq_false_iff_ne]
    exact ⟨⟨⟨⟨⟨⟨⟨⟨⟨⟨⟨⟨⟨⟨⟨⟨⟨⟨⟨hc, h45⟩, h63⟩, h58⟩, by omega⟩, by omega⟩, by omega⟩, by omega⟩, by omega⟩, by omega⟩, by omega⟩, by omega⟩, by omega⟩,
      by omega⟩, by omega⟩, by omega⟩, by omega⟩, by omega⟩, by omega⟩, by omega⟩
  rw [hi, lw_pure]
  exact ⟨rfl, rfl, rfl⟩

/-- The scanner recognises and reads a plain scalar made of known pieces. -/
theorem lw_plain {flow : Bool} {pi : Int} {lb : Break} {c : Nat} {cs rest fin : Text} {nl : Bool} {ps : List Piece} {m : Mark}
    (p1 : PlainFirst flow c cs) (p2 : PlainOk flow false (c :: cs)) (p3 : startsDocument (c :: cs) = false)
    (h2 : PlainPieces flow (pi + 1) 0 (.lit c :: ps)) (h3 : pValue (.lit c :: ps) = c :: cs) (hm : flow = false → pi ≤ m.column)
    (hr : PlainEnd flow (pi + 1) lb rest fin nl) (hz : (pText lb (.lit c :: ps) ++ rest).getLast? = some 0) :
    lw (dispatch flow) (fun k m' cs' => k = .plain ∧ m' = m ∧ cs' = pText lb (.lit c :: ps) ++ rest) m (pText lb (.lit c :: ps) ++ rest) ∧
    PlainStart flow m (pText lb (.lit c :: ps) ++ rest) ∧
    ∀ f, (pText lb (.lit c :: ps) ++ rest).length < f → lw (scanPlainScalar f pi flow)
      (fun r _ cs' => r.1.data = .scalar (c :: cs) .plain ∧ r.2 = nl ∧ cs' = fin) m (pText lb (.lit c :: ps) ++ rest) := by
  have hbz : isBlankz c = false := by rw [isBlankz_of_plain p2.1 p2.2.1]; exact p1.space
  have hdoc : NoDoc (pText lb (.lit c :: ps) ++ rest) := noDoc_text hr h2 (by rw [h3]; exact p3)
  have hrz : rest.getLast? = some 0 := by
    rw [List.getLast?_append] at hz
    cases hx : rest.getLast? with
    | none =>
      rw [List.getLast?_eq_none_iff] at hx
      obtain ⟨_, _, e, _⟩ := hr.first
      rw [hx] at e; cases e
    | some y => rw [hx] at hz; simpa using hz
  have hcons : pText lb (.lit c :: ps) ++ rest = c :: (pText lb ps ++ rest) := rfl
  have hnext : c = 63 ∨ c = 58 ∨ c = 45 → ∃ d r', pText lb ps ++ rest = d :: r' ∧ isBlankz d = false := by
    intro hx
    have hb := p1.special hx
    cases cs with
    | nil => exact absurd hb (by decide)
    | cons d cs' =>
      have hv2 : pValue ps = d :: cs' := by simpa [pValue, Piece.value] using h3
      cases ps with
      | nil => cases hv2
      | cons p qs =>
        cases p with
        | lit x =>
          simp only [pValue, Piece.value, List.cons_append, List.nil_append, List.cons.injEq] at hv2
          exact ⟨x, pText lb qs ++ rest, rfl, by rw [hv2.1]; exact hb⟩
        | esc _ _ => exact h2.2.1.elim
        | sp =>
          simp only [pValue, Piece.value, List.cons_append, List.nil_append, List.cons.injEq] at hv2
          rw [← hv2.1] at p2
          have : isBlankz d = true := by rw [← hv2.1]; decide
          simp only [nextC] at hb
          rw [this] at hb; cases hb
        | gap bs j =>
          obtain ⟨⟨rfl, _⟩, _⟩ := h2.2
          simp only [pValue, Piece.value, foldBreaks_one, List.cons_append, List.nil_append, List.cons.injEq] at hv2
          have : isBlankz d = true := by rw [← hv2.1]; decide
          simp only [nextC] at hb
          rw [this] at hb; cases hb
  refine ⟨?_, ?_, fun f hf => ?_⟩
  · rw [hcons]
    refine lw_dispatch_plain ?_ p1 hbz hnext (.inr (by rw [← hcons]; exact hdoc))
    rw [← hcons]; exact hz
  · refine ⟨⟨c, _, hcons, (start_flow p1.start).2, hbz, fun _ => (start_flow p1.start).1, fun h => ⟨?_, hnext (.inr (.inl h))⟩⟩, ?_⟩
    · cases flow with
      | false => rfl
      | true => exact absurd h (p1.flow rfl).2
    · rintro x hx ⟨d, r, _, hcs2, _⟩
      rw [hcs2] at hdoc
      rcases hx with rfl | rfl
      · exact absurd hdoc.1 (by simp [List.isPrefixOf])
      · exact absurd hdoc.2 (by simp [List.isPrefixOf])
  · have := lw_scanPlainScalar h2 (start_flow p1.start).2 hr hrz hf (.inr hdoc) hm
    rw [h3] at this
    exact this

/-- **C45 (plain scalars round-trip).** Text that the analysis allows in plain style in a context is written so that the scanner, in
this context, reads one plain scalar with exactly this text. `PlainEnd` says what follows the scalar: the end of the input, `:` and a
blank, a flow indicator in a flow collection; or spaces or line breaks and one of these, or line breaks and a line that is less
indented (outside flow collections), or a document indicator. -/
theorem C45_plain_round_trip {s : Emitter} {lb : Break} (hl : s.lineBreak = some lb) (hi : 1 ≤ s.indentCol) (unicode flow : Bool) (v : Text)
    (hne : v ≠ []) (hv : (if flow = true then (analyzeScalarData unicode v).flowPlainAllowed else (analyzeScalarData unicode v).blockPlainAllowed) = true)
    (allowBreaks : Bool) (pi : Int) (hpi : pi < s.indentCol) :
    (writePlain v allowBreaks s).val = .ok () ∧
    ∃ body, (writePlain v allowBreaks s).text = lead s ++ body ∧
      ∀ m rest fin nl, (flow = false → pi ≤ m.column) → PlainEnd flow (pi + 1) lb rest fin nl → Reads flow pi m (body ++ rest) .plain v fin := by
  cases v with
  | nil => exact absurd rfl hne
  | cons c cs =>
    obtain ⟨p1, p2, p3⟩ := plain_allowed hv
    obtain ⟨_, h1, ps, h2, h3, h4⟩ := tw_out (tw_writePlain (ab := allowBreaks) (indent := pi + 1) hl hi (by omega) p1 p2)
    refine ⟨h1, _, h4, fun m rest fin nl hm hr => ?_⟩
    intro T i f ha hh hcs hf
    have hz := ha.ends rfl
    rw [hcs] at hz
    obtain ⟨k1, k2, k3⟩ := lw_plain p1 p2 p3 h2 h3 hm hr hz
    have hd := run_of_lw (p := dispatch flow) (R := fun _ i' => i' = i) ha.bad (pw_dispatch ha hh (fun x r h => by
        rw [hcs, show pText lb (.lit c :: ps) ++ rest = c :: (pText lb ps ++ rest) from rfl] at h; cases h; exact p2.2.1) fun _ _ => rfl)
      (by rw [hcs]; exact k1)
    obtain ⟨k, m1, i1, d1, ⟨hk, hm1, _⟩, hi1⟩ := hd
    rw [hk, hm1, hi1] at d1
    have hs := run_of_lw (p := scanPlainScalar f pi flow) (R := fun m' i' => At T none m' i') ha.bad
      (pw_reported (safe_scanPlainScalar badOk_none ha (by rw [hcs]; exact k2) (by rw [hcs]; exact hf) fun _ _ _ _ h _ _ _ => h))
      (by rw [hcs]; exact k3 f hf)
    obtain ⟨t, m2, i2, s1, ⟨s2, s3, s4⟩, s5⟩ := hs
    refine ⟨.plain, t.1, m2, i2, d1, ?_, s2, s4, s5⟩
    show ((do let (t, _) ← scanPlainScalar f pi flow; pure t : Lex Token) m).run i = _
    have : ((do let (t, _) ← scanPlainScalar f pi flow; pure t : Lex Token) m) = (scanPlainScalar f pi flow m).bind fun x => .ret (x.1.1, x.2) := rfl
    rw [this, Prog.run_bind, s1]
    rfl

/-- The writers are called after `yaml_emitter_increase_indent` (emitter.c:1048), so with good settings (C48) the hypotheses on the
indentation hold, and `pi` can be the indentation of the enclosing block collection. -/
theorem C45_indent {s : Emitter} (h : 2 ≤ s.bestIndent) :
    (increaseIndent true false s).val = .ok () ∧ 1 ≤ (increaseIndent true false s).st.indentCol ∧
    s.indent < (increaseIndent true false s).st.indentCol ∧ (increaseIndent true false s).st.lineBreak = s.lineBreak := by
  refine ⟨rfl, ?_, ?_, rfl⟩
  · show 1 ≤ (s.deeper true false).toNat
    unfold Emitter.deeper
    simp only [if_true, Bool.not_false]
    split <;> omega
  · show s.indent < ((s.deeper true false).toNat : Int)
    unfold Emitter.deeper
    simp only [if_true, Bool.not_false]
    split <;> omega

/-! ### The hypotheses hold for non-trivial texts -/

/-- An emitter in the middle of a line, with lines folded at column 8 and indentation 2. -/
def demo : Emitter := { lineBreak := some .ln, indent := 2, bestWidth := 8, column := 5, whitespace := false, indention := false }

/-- `it's  a\tb c`, as it is written between double quotes. -/
example : (writeDouble (lit ['i', 't', '\'', 's', ' ', ' ', 'a', '\t', 'b', ' ', 'c']) true demo).text =
    lit [' ', '"', 'i', 't', '\'', 's', '\n', ' ', ' ', '\\', ' ', 'a', '\\', 't', 'b', ' ', 'c', '"'] := by decide +kernel
example : demo.lineBreak = some .ln ∧ 1 ≤ demo.indentCol := by decide
example : UScalar 0x20 ∧ UScalar 0x10FFFF ∧ ¬ UScalar 0xDC00 := by unfold UScalar; decide

/-- A text with a line break and a quote. -/
example : (analyzeScalarData false (lit ['i', 't', '\'', 's', '\n', '\n', 'b', ' ', 'c'])).singleQuotedAllowed = true := by decide +kernel
example : (writeSingle (lit ['i', 't', '\'', 's', '\n', '\n', 'b', ' ', 'c']) true demo).text =
    lit [' ', '\'', 'i', 't', '\'', '\'', 's', '\n', '\n', '\n', ' ', ' ', 'b', ' ', 'c', '\''] := by decide +kernel

/-- A plain text with indicators inside. -/
example : (analyzeScalarData false (lit ['-', 'a', ':', 'b', '#', ' ', ' ', 'c', ' ', 'd'])).blockPlainAllowed = true := by decide +kernel
example : (writePlain (lit ['-', 'a', ':', 'b', '#', ' ', ' ', 'c', ' ', 'd']) true demo).text =
    lit [' ', '-', 'a', ':', 'b', '#', ' ', ' ', 'c', '\n', ' ', ' ', 'd'] := by decide +kernel
example : PlainEnd false 2 .ln (lit ['\n', ' ', 'x', '\x00']) (lit ['x', '\x00']) true :=
  .line [0xA] 1 (lit ['x', '\x00']) (by simp) (by simp [keptBreak]) ⟨_, _, rfl, by decide, by decide⟩ (.inr (.inl ⟨rfl, by decide⟩))

end LibYaml
