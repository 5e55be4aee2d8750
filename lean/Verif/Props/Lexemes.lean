import Verif.Proofs.LexPlain
import Verif.Proofs.LexTags

/-!
# C55: what the scanner reads is what the lexical rules say

`Spec/Lexemes.lean` says which texts are quoted, plain and block scalars, anchors, tags, directives and the white space between tokens, and
what they denote. The functions of `scanner.c` that read them, in whatever position of a text they are called, succeed exactly on these
texts, and deliver exactly this value and stop exactly there.

`Yields p m cs a m' cs'`: the function `p`, called at the position `m` with the text `cs` ahead, succeeds with the result `a`, at the position
`m'` and with the text `cs'` ahead. The text an input provides ends with NUL, hence `0 ∈ cs`. `f` bounds the number of rounds of the loops; it
is enough that it exceeds the length of the text, and C23 says that a run never exhausts it.
-/

namespace LibYaml

open Spec

variable {m : Mark} {cs cs' : Text}

/-- C55: quoted scalars. Escapes, folded line breaks, doubled quotes, document indicators, the closing quote. -/
theorem C55_quoted_scalars {f : Nat} {single : Bool} {q : Nat} {t : TokData} (hz : 0 ∈ cs) (hf : cs.length < f) :
    (∃ a b m', Yields (scanFlowScalar f single) m (q :: cs) { data := t, start := a, stop := b } m' cs') ↔
    ∃ v, Quoted single (m.column + 1) cs v cs' ∧ t = .scalar v (if single = true then .single else .double) :=
  scanFlowScalar_iff hz hf

/-- C55: plain scalars, in the block context and in the flow context; `line` says whether a line break follows. -/
theorem C55_plain_scalars {f : Nat} {parent : Int} {flow : Bool} {t : TokData} {line : Bool} (hz : 0 ∈ cs) (hf : cs.length < f)
    (hd : ¬ DocAt m.column cs) (hc : ¬ ∃ r, cs = 0x23 :: r) :
    (∃ a b m', Yields (scanPlainScalar f parent flow) m cs ({ data := t, start := a, stop := b }, line) m' cs') ↔
    ∃ v, Plain flow (parent + 1) m.column cs v cs' line ∧ t = .scalar v .plain :=
  scanPlainScalar_iff hz hf hd hc

/-- C55: literal and folded scalars: header, indentation, folding, chomping. -/
theorem C55_block_scalars {f : Nat} {parent : Int} {literal : Bool} {q : Nat} {t : TokData} (hf : cs.length < f) :
    (∃ a b m', Yields (scanBlockScalar f parent literal) m (q :: cs) { data := t, start := a, stop := b } m' cs') ↔
    ∃ v mid, BlockScalar literal parent cs v mid cs' ∧ t = .scalar v (if literal = true then .literal else .folded) :=
  scanBlockScalar_iff hf

/-- C55: anchors and aliases. -/
theorem C55_anchors {f : Nat} {anchor : Bool} {q : Nat} {t : TokData} (hf : cs.length < f) :
    (∃ a b m', Yields (scanAnchor f anchor) m (q :: cs) { data := t, start := a, stop := b } m' cs') ↔
    ∃ v, AnchorName cs v cs' ∧ t = if anchor = true then .anchor v else .alias v :=
  scanAnchor_iff hf

/-- C55: tags: verbatim, with a named handle, primary, and the lone `!`; percent escapes. -/
theorem C55_tags {f : Nat} {flow : Bool} {t : TokData} (hz : 0 ∈ cs) (hf : cs.length + 1 < f) :
    (∃ a b m', Yields (scanTag f flow) m (0x21 :: cs) { data := t, start := a, stop := b } m' cs') ↔
    ∃ h v, TagAt flow (0x21 :: cs) h v cs' ∧ t = .tag h v :=
  scanTag_iff hz hf

/-- C55: directives. -/
theorem C55_directives {f : Nat} {q : Nat} {t : TokData} (hf : cs.length < f) :
    (∃ a b m', Yields (scanDirective f) m (q :: cs) { data := t, start := a, stop := b } m' cs') ↔
    (∃ j k mid, VersionAt cs j k mid cs' ∧ t = .versionDirective ⟨j, k⟩) ∨ (∃ h p mid, TagDirAt cs h p mid cs' ∧ t = .tagDirective ⟨h, p⟩) :=
  scanDirective_iff hf

/-- C55: white space and comments between tokens, and whether an implicit key may start behind them. -/
theorem C55_filler {flow allowed b : Bool} {f : Nat} (hf : cs.length < f) :
    (∃ m', Yields (scanToNext flow f f allowed) m cs b m' cs') ↔ Filler flow allowed m.column cs b cs' :=
  scanToNext_iff hf

/-! ### Concrete texts -/

/-- `"a\x41 b"`, a comma -/
example : Quoted false 1 (lit ['a', '\\', 'x', '4', '1', ' ', 'b', '"', ','] ++ [0]) (lit ['a', 'A', ' ', 'b']) (lit [','] ++ [0]) := by
  obtain ⟨v, h, e⟩ := (C55_quoted_scalars (single := false) (q := 0x22) (m := ⟨0, 0, 0⟩) (f := 20) (cs := lit ['a', '\\', 'x', '4', '1', ' ', 'b', '"', ','] ++ [0]) (cs' := lit [','] ++ [0]) (t := .scalar (lit ['a', 'A', ' ', 'b']) .double) (by decide) (by decide)).mp ⟨_, _, _, by exact rfl⟩
  cases e
  exact h

/-- `'it''s'` and `so` on the next line; the line break is folded to a space -/
example : Quoted true 1 (lit ['i', 't', '\'', '\'', 's', ' ', '\n', ' ', 's', 'o', '\''] ++ [0]) (lit ['i', 't', '\'', 's', ' ', 's', 'o']) ([0]) := by
  obtain ⟨v, h, e⟩ := (C55_quoted_scalars (single := true) (q := 0x27) (m := ⟨0, 0, 0⟩) (f := 20) (cs := lit ['i', 't', '\'', '\'', 's', ' ', '\n', ' ', 's', 'o', '\''] ++ [0]) (cs' := [0]) (t := .scalar (lit ['i', 't', '\'', 's', ' ', 's', 'o']) .single) (by decide) (by decide)).mp ⟨_, _, _, by exact rfl⟩
  cases e
  exact h

/-- `a:b c` in front of a colon with a space -/
example : Plain false 0 0 (lit ['a', ':', 'b', ' ', 'c', ':', ' ', 'd'] ++ [0]) (lit ['a', ':', 'b', ' ', 'c']) (lit [':', ' ', 'd'] ++ [0]) false := by
  obtain ⟨v, h, e⟩ := (C55_plain_scalars (parent := -1) (flow := false) (line := false) (m := ⟨0, 0, 0⟩) (f := 20) (cs := lit ['a', ':', 'b', ' ', 'c', ':', ' ', 'd'] ++ [0]) (cs' := lit [':', ' ', 'd'] ++ [0]) (t := .scalar (lit ['a', ':', 'b', ' ', 'c']) .plain) (by decide) (by decide) (by simp [DocAt, lit]) (by simp [lit])).mp ⟨_, _, _, by exact rfl⟩
  cases e
  exact h

/-- A folded scalar with strip chomping: two lines are joined with a space -/
example : ∃ mid, BlockScalar false 0 (lit ['-', '\n', ' ', 'x', '\n', ' ', 'y', '\n'] ++ [0]) (lit ['x', ' ', 'y']) mid [0] := by
  obtain ⟨v, mid, h, e⟩ := (C55_block_scalars (literal := false) (q := 0x3E) (parent := 0) (m := ⟨0, 0, 0⟩) (f := 20) (cs := lit ['-', '\n', ' ', 'x', '\n', ' ', 'y', '\n'] ++ [0]) (cs' := [0]) (t := .scalar (lit ['x', ' ', 'y']) .folded) (by decide)).mp ⟨_, _, _, by exact rfl⟩
  cases e
  exact ⟨mid, h⟩

/-- `&a1` in front of a space -/
example : AnchorName (lit ['a', '1', ' ', 'b'] ++ [0]) (lit ['a', '1']) (lit [' ', 'b'] ++ [0]) := by
  obtain ⟨v, h, e⟩ := (C55_anchors (anchor := true) (q := 0x26) (m := ⟨0, 0, 0⟩) (f := 20) (cs := lit ['a', '1', ' ', 'b'] ++ [0]) (cs' := lit [' ', 'b'] ++ [0]) (t := .anchor (lit ['a', '1'])) (by decide)).mp ⟨_, _, _, by exact rfl⟩
  cases e
  exact h

/-- `!e!a%41` in front of a space -/
example : TagAt false (lit ['!', 'e', '!', 'a', '%', '4', '1', ' ', 'x'] ++ [0]) (lit ['!', 'e', '!']) (lit ['a', 'A']) (lit [' ', 'x'] ++ [0]) := by
  obtain ⟨h, v, k, e⟩ := (C55_tags (m := ⟨0, 0, 0⟩) (f := 20) (flow := false) (cs := lit ['e', '!', 'a', '%', '4', '1', ' ', 'x'] ++ [0]) (cs' := lit [' ', 'x'] ++ [0]) (t := .tag (lit ['!', 'e', '!']) (lit ['a', 'A'])) (by decide) (by decide)).mp
    ⟨_, _, _, by exact rfl⟩
  cases e
  exact k

/-- `%YAML 1.12 #` -/
example : VersionAt (lit ['Y', 'A', 'M', 'L', ' ', '1', '.', '1', '2', ' ', '#', '\n'] ++ [0]) 1 12 (lit [' ', '#', '\n'] ++ [0]) [0] :=
  .mk [0x20] [0x31] [0x31, 0x32] (by simp) (by simp [Blank]) ⟨.cons (d := 1) (by decide) (.nil _), by decide, by decide⟩
    ⟨.cons (d := 1) (by decide) (.cons (d := 2) (by decide) (.nil _)), by decide, by decide⟩ ⟨_, _, rfl, by decide⟩
    (.break [0x20] [0x23] (by simp [Blank]) (.inr ⟨_, _, rfl, rfl⟩) (by simp [Brk]) (.lf _))

/-- a comment, a line break, two spaces: behind them an implicit key may start -/
example : Filler false false 3 (lit [' ', '#', ' ', 'c', '\n', ' ', ' ', 'k'] ++ [0]) true (lit ['k'] ++ [0]) :=
  (C55_filler (m := ⟨0, 0, 3⟩) (f := 20) (by decide)).mp ⟨_, rfl⟩

end LibYaml
