import Verif.Props.RoundTrip
import Verif.Proofs.BlockWrite

/-!
# C46: block scalars survive writing and scanning

After a block scalar the emitter goes to a new line that is less indented than the scalar, or ends the stream. The theorems allow any
line breaks `bs` there that agree with the chomping indicator, then `k` spaces, fewer than the indentation of the scalar, and then a
character that is neither a blank nor a line break (`Stops`; it may be the NUL at the end of the input).
-/

namespace LibYaml

open Spec

/-- The kind of token that starts with `|` or `>` outside flow collections. -/
theorem lw_dispatch_block {literal : Bool} {m : Mark} {c : Nat} {r : Text} (hc : c = if literal = true then 124 else 62) (hz : (c :: r).getLast? = some 0) :
    lw (dispatch false) (fun k m' cs => k = .block literal ∧ m' = m ∧ cs = c :: r) m (c :: r) := by
  subst hc
  unfold dispatch
  rw [lw_bind, lw_peek0, lw_bind, lw_get]
  cases literal with
  | true =>
    rw [lw_ite, if_neg (by decide), lw_ite, if_neg (by rintro ⟨_, h⟩; exact absurd h (by decide)), lw_bind]
    refine lw_docMark_false (by decide) hz (by simp [List.isPrefixOf]) ?_
    rw [lw_ite, if_neg (by decide), lw_bind]
    refine lw_docMark_false (by decide) hz (by simp [List.isPrefixOf]) ?_
    rw [lw_ite, if_neg (by decide)]
    exact ⟨rfl, rfl, rfl⟩
  | false =>
    rw [lw_ite, if_neg (by decide), lw_ite, if_neg (by rintro ⟨_, h⟩; exact absurd h (by decide)), lw_bind]
    refine lw_docMark_false (by decide) hz (by simp [List.isPrefixOf]) ?_
    rw [lw_ite, if_neg (by decide), lw_bind]
    refine lw_docMark_false (by decide) hz (by simp [List.isPrefixOf]) ?_
    rw [lw_ite, if_neg (by decide)]
    exact ⟨rfl, rfl, rfl⟩

/-- The scanner recognises a block scalar that it can read. -/
theorem reads_block {literal : Bool} {pi : Int} {m : Mark} {v r fin : Text}
    (h : ∀ f, ((if literal = true then 124 else 62) :: r).length < f → lw (scanBlockScalar f pi literal)
      (fun tok _ cs => tok.data = .scalar v (if literal = true then .literal else .folded) ∧ cs = fin) m ((if literal = true then 124 else 62) :: r)) :
    Reads false pi m ((if literal = true then 124 else 62) :: r) (if literal = true then .literal else .folded) v fin := by
  intro T i f ha hh hcs hf
  have hz := ha.ends rfl
  rw [hcs] at hz
  have hd1 := run_of_lw (p := dispatch false) (R := fun _ i' => i' = i) ha.bad (pw_dispatch ha hh (fun c r h => by
      rw [hcs] at h; cases h; cases literal <;> rfl) fun _ _ => rfl)
    (by rw [hcs]; exact lw_dispatch_block (literal := literal) rfl hz)
  obtain ⟨k1, m1, i1, d1, ⟨hk1, hm1, _⟩, hi1⟩ := hd1
  rw [hk1, hm1, hi1] at d1
  have hs := run_of_lw (p := scanBlockScalar f pi literal) (R := fun m' i' => At T none m' i') ha.bad
    (pw_reported (safe_scanBlockScalar badOk_none ha (hh.mono (by omega)) hcs (by cases literal <;> simp) (by rw [hcs]; exact hf) fun _ _ _ h _ _ _ => h))
    (by rw [hcs]; exact h f hf)
  obtain ⟨tok, m2, i2, s1, ⟨s2, s3⟩, s4⟩ := hs
  exact ⟨_, tok, m2, i2, d1, s1, s2, s3, s4⟩

/-- The indentation of the text of a scalar, as `yaml_emitter_increase_indent` computes it from the indentation `pi` of the enclosing
collection (see `C46_indent`); the hint is one digit. -/
structure BlockIndent (s : Emitter) (pi : Int) : Prop where
  low : 2 ≤ s.bestIndent
  high : s.bestIndent ≤ 9
  col : (s.indentCol : Int) = if 0 ≤ pi then pi + s.bestIndent else s.bestIndent

/-- What may follow the text of the scalar `v`: line breaks that agree with the chomping indicator, and a less indented line. -/
structure BlockRest (s : Emitter) (lb : Break) (v rest fin : Text) : Prop where
  form : ∃ bs k, rest = breaksOut lb bs ++ (List.replicate k 0x20 ++ fin) ∧ (∀ b ∈ bs, keptBreak b) ∧ k < s.indentCol ∧ ChompEnd v bs
  stops : Stops fin

/-- Scanning what was written. -/
theorem lw_blockOut {literal : Bool} {s : Emitter} {lb : Break} {v t : Text} (h : BlockOut literal s lb v t) (hne : v ≠ [])
    (hp : ∀ c ∈ v, isPrintable c = true) {pi : Int} (hi : BlockIndent s pi) :
    ∃ body, t = lead s ++ (if literal = true then 124 else 62) :: body ∧ ∀ m rest fin f, BlockRest s lb v rest fin →
      ((if literal = true then 124 else 62) :: (body ++ rest)).length < f → lw (scanBlockScalar f pi literal)
        (fun tok _ cs => tok.data = .scalar v (if literal = true then .literal else .folded) ∧ cs = fin) m
        ((if literal = true then 124 else 62) :: (body ++ rest)) := by
  obtain ⟨b0, ls, h1, h2, h3, h4⟩ := h
  refine ⟨_, h4, fun m rest fin f hr hf => ?_⟩
  obtain ⟨⟨bs, k, rfl, r1, r2, r3⟩, r4⟩ := hr
  obtain ⟨i1, i2, i3⟩ := hi
  have hd : 0 < s.indentCol := by omega
  have hbr : ∀ x, keptBreak x → isBreak x = true := by
    rintro x (rfl | rfl | rfl) <;> decide
  -- the indentation is found
  have hind : ∀ ls' b0', (ls ≠ [] → ls' = closeLast ls bs ∧ b0' = b0) → (b0 = [] → b0' ≠ [] → ls = []) →
      IndentFound pi s.indentCol (hintFor s v) b0' ls' := by
    intro ls' b0' hl' hb'
    unfold hintFor
    split
    · refine .inr ⟨by omega, by omega, ?_⟩
      rw [i3]
      split <;> omega
    · rename_i hx
      left
      simp only [Bool.or_eq_true, not_or, Bool.not_eq_true] at hx
      have hb0 : b0 = [] := by
        cases b0 with
        | nil => rfl
        | cons b b0 =>
          rw [h3] at hx
          have := hbr b (h1 b List.mem_cons_self)
          simp only [List.cons_append, nextC] at hx
          rw [this] at hx; cases hx.2
      subst hb0
      cases ls with
      | nil => exact absurd h3 hne
      | cons y ls =>
        obtain ⟨l, b⟩ := y
        obtain ⟨g1, g2, g3, g4, g5⟩ := h2
        obtain ⟨e1, e2⟩ := hl' (by simp)
        cases l with
        | nil => exact absurd rfl g1
        | cons c l =>
          have hv : v = c :: (l ++ joinVal literal (isBlank c) (b.take 1) (b.drop 1) ls) := by rw [h3]; rfl
          have hcb : isBlank c = false := by
            obtain ⟨t1, _, _⟩ := printable_facts (hp c (by rw [hv]; exact List.mem_cons_self))
            rw [hv] at hx
            unfold isBlank
            simp only [nextC] at hx
            rw [hx.1, t1]; rfl
          refine ⟨rfl, e2, ?_, ?_⟩
          · rw [i3]; split <;> omega
          · rw [e1]
            cases ls with
            | nil => exact ⟨c, l, b ++ bs, [], rfl, hcb⟩
            | cons z ls => exact ⟨c, l, b, closeLast (z :: ls) bs, rfl, hcb⟩
  by_cases hls : ls = []
  · subst hls
    have hv : v = b0 := by rw [h3]; simp [lineVal]
    have hkeep : chompFor v = .keep := by rw [hv]; exact chomp_breaks (by rw [← hv]; exact hne) h1
    have hbs : bs = [] := by
      unfold ChompEnd at r3
      rw [hkeep] at r3; exact r3
    subst hbs
    have e : blockText literal lb s.indentCol (hintFor s v) (chompFor v) b0 [] k fin = (if literal = true then 124 else 62) :: (incText (hintFor s v) ++
        (chompText (chompFor v) ++ (brkText (some lb) ++ (breaksOut lb b0 ++ linesText lb s.indentCol []))) ++ (breaksOut lb [] ++ (List.replicate k 0x20 ++ fin))) := by
      unfold blockText; simp [breaksOut, linesText]
    rw [← e] at hf ⊢
    refine lw_mono (lw_scanBlockScalar (m := m) hd r2 h1 trivial (fun x hx => by cases hx) r4 (hind [] b0 (fun h => absurd rfl h) (fun _ _ => rfl)) hf) ?_
    rintro tok m' cs ⟨a1, a2, _⟩
    rw [hkeep] at a1
    simp only [blockValue, chompTail, List.nil_append] at a1
    rw [← hv] at a1
    exact ⟨a1, a2⟩
  · have hcv : joinVal literal false [] b0 ls = v := by
      rw [h3]
      cases ls with
      | nil => exact absurd rfl hls
      | cons y ls =>
        obtain ⟨l, b⟩ := y
        simp [joinVal, lineVal, blockJoin]
    obtain ⟨s', c, b, e1, e2, e3, e4, e5⟩ := blockValue_close (literal := literal) (bs := bs) hls h2 false [] [] b0
    rw [List.nil_append, hcv] at e2
    obtain ⟨x1, x2⟩ := chomp_value (s := s') (c := c) (b := b) (bs := bs) e3 e5 (by rw [← e2]; exact r3)
    have hcl : Closed (closeLast ls bs) := closed_close h2 (fun hb x hx => by rw [e4 x hx]; exact x2 hb)
    have e : blockText literal lb s.indentCol (hintFor s v) (chompFor v) b0 (closeLast ls bs) k fin = (if literal = true then 124 else 62) ::
        (incText (hintFor s v) ++ (chompText (chompFor v) ++ (brkText (some lb) ++ (breaksOut lb b0 ++ linesText lb s.indentCol ls))) ++
          (breaksOut lb bs ++ (List.replicate k 0x20 ++ fin))) := by
      unfold blockText
      rw [linesText_close hls]
      simp
    rw [← e] at hf ⊢
    refine lw_mono (lw_scanBlockScalar (m := m) hd r2 h1 (linesOk_close h2 r1) hcl r4 (hind _ b0 (fun _ => ⟨rfl, rfl⟩) (fun h h' => absurd h h')) hf) ?_
    rintro tok m' cs ⟨a1, a2, _⟩
    rw [e1] at a1
    simp only [] at a1
    rw [e2, x1, ← e2] at a1
    exact ⟨a1, a2⟩

theorem reads_blockOut {literal : Bool} {s : Emitter} {lb : Break} {v t : Text} (h : BlockOut literal s lb v t) (hne : v ≠ [])
    (hp : ∀ c ∈ v, isPrintable c = true) {pi : Int} (hi : BlockIndent s pi) :
    ∃ body, t = lead s ++ body ∧ ∀ m rest fin, BlockRest s lb v rest fin →
      Reads false pi m (body ++ rest) (if literal = true then .literal else .folded) v fin := by
  obtain ⟨body, h1, h2⟩ := lw_blockOut h hne hp hi
  exact ⟨_, h1, fun m rest fin hr => reads_block fun f hf => h2 m rest fin f hr hf⟩

/-- **C46 (literal scalars round-trip).** Text that the analysis allows in block style is written in literal style so that the scanner
reads exactly this text, whatever the settings. -/
theorem C46_literal_round_trip {s : Emitter} {lb : Break} (hl : s.lineBreak = some lb) {pi : Int} (hi : BlockIndent s pi) (unicode : Bool) (v : Text)
    (hne : v ≠ []) (hv : (analyzeScalarData unicode v).blockAllowed = true) :
    (writeLiteral v s).val = .ok () ∧
    ∃ body, (writeLiteral v s).text = lead s ++ body ∧
      ∀ m rest fin, BlockRest s lb v rest fin → Reads false pi m (body ++ rest) .literal v fin := by
  obtain ⟨hp, _⟩ := block_allowed hne hv
  have h1 : 1 ≤ s.indentCol := by
    obtain ⟨i1, i2, i3⟩ := hi
    split at i3 <;> omega
  obtain ⟨_, h2, h3⟩ := tw_out (tw_writeLiteral hl h1 hi.low hp)
  exact ⟨h2, reads_blockOut h3 hne hp hi⟩

/-- **C46 (folded scalars round-trip), partial.** The same for the folded style, if no line of the text that begins with a space
or tab has a single space at which it is folded because it exceeds the width (`Narrow`). Without this hypothesis the claim is false, see `C46_folded_violated`. -/
theorem C46_folded_round_trip_partial {s : Emitter} {lb : Break} (hl : s.lineBreak = some lb) {pi : Int} (hi : BlockIndent s pi) (unicode : Bool)
    (v : Text) (hne : v ≠ []) (hv : (analyzeScalarData unicode v).blockAllowed = true) (hw : Narrow (s.bestWidth - s.indentCol) true none v) :
    (writeFolded v s).val = .ok () ∧
    ∃ body, (writeFolded v s).text = lead s ++ body ∧
      ∀ m rest fin, BlockRest s lb v rest fin → Reads false pi m (body ++ rest) .folded v fin := by
  obtain ⟨hp, hsb⟩ := block_allowed hne hv
  have h1 : 1 ≤ s.indentCol := by
    obtain ⟨i1, i2, i3⟩ := hi
    split at i3 <;> omega
  obtain ⟨_, h2, h3⟩ := tw_out (tw_writeFolded hl h1 hi.low hp hsb hw)
  exact ⟨h2, reads_blockOut h3 hne hp hi⟩

/-- The writers are called after `yaml_emitter_increase_indent` (emitter.c:1048); `pi` is the indentation of the enclosing collection. -/
theorem C46_indent {s : Emitter} (h1 : 2 ≤ s.bestIndent) (h2 : s.bestIndent ≤ 9) :
    BlockIndent (increaseIndent true false s).st s.indent := by
  refine ⟨h1, h2, ?_⟩
  show ((s.deeper true false).toNat : Int) = if 0 ≤ s.indent then s.indent + s.bestIndent else s.bestIndent
  unfold Emitter.deeper
  simp only [if_true, Bool.not_false]
  split <;> split <;> omega

/-! ### The folded style loses text -/

/-- An emitter in the middle of a line, with width 8 and indentation 2. -/
def demoTwo : Emitter :=
  { lineBreak := some .ln, indent := 2, bestIndent := 2, bestWidth := 8, column := 5, whitespace := false, indention := false }


/-- The value of the block scalar that the scanner reads from some characters. -/
def blockRead (f : Nat) (pi : Int) (literal : Bool) (cs : Text) : Option (TokData × Text) :=
  match (scanBlockScalar f pi literal {}).run { cs := cs, avail := 1 } with
  | .ok ((t, _), i) => some (t.data, i.cs)
  | .error _ => none

/-- `yaml_emitter_write_folded_scalar` (emitter.c:2344-2347) folds a long line at a space even if the line begins with a space, but
line breaks next to such a line are not folded by the scanner (scanner.c:2872-2891): the space comes back as a line break. Here the
width is 8 and the text is ` aaaaaaaa b`. -/
theorem C46_folded_violated : ∃ (s : Emitter) (lb : Break) (pi : Int) (v : Text), s.lineBreak = some lb ∧ BlockIndent s pi ∧ v ≠ [] ∧
    (analyzeScalarData false v).blockAllowed = true ∧ ∃ body rest fin, (writeFolded v s).text = lead s ++ body ∧ BlockRest s lb v rest fin ∧
    ∃ w, blockRead 100 pi false (body ++ rest) = some (.scalar w .folded, fin) ∧ w ≠ v := by
  refine ⟨demoTwo, .ln, -1, lit [' ', 'a', 'a', 'a', 'a', 'a', 'a', 'a', 'a', ' ', 'b'], rfl, ⟨by decide, by decide, by decide⟩,
    by decide, by decide +kernel,
    lit ['>', '2', '-', '\n', ' ', ' ', ' ', 'a', 'a', 'a', 'a', 'a', 'a', 'a', 'a', '\n', ' ', ' ', 'b'], lit ['\n', '\x00'], [0],
    by decide +kernel, ⟨⟨[0xA], 0, rfl, by simp [keptBreak], by decide, List.cons_ne_nil _ _⟩, _, _, rfl, by decide, by decide⟩,
    lit [' ', 'a', 'a', 'a', 'a', 'a', 'a', 'a', 'a', '\n', 'b'], by decide +kernel, by decide⟩

/-! ### The hypotheses hold for non-trivial texts -/

/-- Blank lines, a line that begins with a space, and a line break at the end. -/
def demoBlock : Text := lit ['\n', 'a', ' ', 'b', '\n', '\n', ' ', 'c', '\n', 'd', '\n']

example : (analyzeScalarData false demoBlock).blockAllowed = true := by decide +kernel
example : BlockIndent demoTwo 0 := ⟨by decide, by decide, by decide⟩
example : (writeLiteral demoBlock demoTwo).text = lit [' ', '|', '2', '\n', '\n', ' ', ' ', 'a', ' ', 'b', '\n', '\n', ' ', ' ', ' ', 'c', '\n', ' ', ' ', 'd', '\n'] := by
  decide +kernel
example : BlockRest demoTwo .ln demoBlock (lit ['x', '\x00']) (lit ['x', '\x00']) :=
  ⟨⟨[], 0, rfl, by simp, by decide, trivial⟩, _, _, rfl, by decide, by decide⟩
example : Narrow (demoTwo.bestWidth - demoTwo.indentCol) true none demoBlock := by
  simp [Narrow, demoBlock, demoTwo, lit, isBreak, isBlank, isSpace, isTab, Emitter.indentCol]

/-- A long line is folded. -/
example : (writeFolded (lit ['a', 'a', 'a', 'a', 'a', 'a', 'a', 'a', ' ', 'b', '\n', 'c']) demoTwo).text =
    lit [' ', '>', '-', '\n', ' ', ' ', 'a', 'a', 'a', 'a', 'a', 'a', 'a', 'a', '\n', ' ', ' ', 'b', '\n', '\n', ' ', ' ', 'c'] := by decide +kernel

end LibYaml
