import Verif.Spec.Lexemes
import Verif.Spec.Tokens

/-!
# From text to tokens

A text is a sequence of lexemes with white space and comments between them (`Lexed`). The tokens of a stream are those of its lexemes, and those
that stand for no text of their own: KEY in front of an implicit key, and the tokens that open and close block collections. `layout` adds them, from
left to right, with a stack of the columns of the block collections that are open. Which lexemes are implicit keys is known when the `:` behind them
is read; the lexeme is marked then.
-/

namespace LibYaml.Spec

/-- A lexeme. -/
structure Lx where
  data : TokData
  /-- where it is in the text -/
  pos : Mark
  stop : Mark
  /-- the number of flow collections it is in -/
  level : Nat
  /-- may an implicit key start here? -/
  free : Bool
  /-- it is the beginning of an implicit key; or, for `:`, it is behind an implicit key -/
  keyed : Bool := false
  deriving DecidableEq

/-- The beginning of the next line, unless `m` is the beginning of a line. -/
def nextLine (m : Mark) : Mark := if m.column = 0 then m else { index := m.index, line := m.line + 1, column := 0 }

/-- The end of a stream counts as the beginning of a line. -/
def Lx.start (l : Lx) : Mark := if l.data = .streamEnd then nextLine l.pos else l.pos

/-- The token of a lexeme. -/
def Lx.token (l : Lx) : Token := { data := l.data, start := l.start, stop := l.stop }

/-- Lexemes with which a key can begin: properties, aliases, scalars other than block scalars, opening brackets. -/
def opensKey : TokData → Bool
  | .alias _ | .anchor _ | .tag _ _ | .flowSequenceStart | .flowMappingStart => true
  | .scalar _ s => s != .literal && s != .folded
  | _ => false

/-- Lexemes that end all block collections. -/
def endsBlocks : TokData → Bool
  | .streamEnd | .versionDirective _ | .tagDirective _ | .documentStart | .documentEnd => true
  | _ => false

/-! ### Layout -/

/-- The indentation: the column of the innermost block collection, -1 if there is none. -/
def indentOf : List Nat → Int
  | [] => -1
  | c :: _ => c

/-- The block collections that are still open at a lexeme in this column that is not inside of a flow collection: those further to the right
have ended. -/
def stillOpen (col : Nat) (cols : List Nat) : List Nat := cols.dropWhile fun c => decide (col < c)

/-- Those that end there. -/
def endedBlocks (col : Nat) (cols : List Nat) : List Nat := cols.takeWhile fun c => decide (col < c)

/-- BLOCK-END tokens. -/
def blockEnds (m : Mark) (cols : List Nat) : List Token := cols.map fun _ => { data := .blockEnd, start := m, stop := m }

/-- The kind of block collection that begins with this lexeme if it is indented further than the innermost one. -/
def Lx.begins (l : Lx) : Option TokData :=
  if l.level = 0 then
    match l.data with
    | .blockEntry => some .blockSequenceStart
    | .key => some .blockMappingStart
    | .value => if l.keyed then none else some .blockMappingStart
    | _ => if l.keyed then some .blockMappingStart else none
  else none

/-- What is closed in front of a lexeme. -/
def Lx.closing (l : Lx) (cols : List Nat) : List Token :=
  if l.level = 0 then blockEnds l.pos (endedBlocks l.pos.column cols) else []

/-- What is open then. -/
def Lx.within (l : Lx) (cols : List Nat) : List Nat :=
  if l.level = 0 then stillOpen l.pos.column cols else cols

/-- Does it open a block collection? -/
def Lx.opening (l : Lx) (cols : List Nat) : Option TokData := if indentOf cols < l.pos.column then l.begins else none

/-- The tokens of a lexeme and those in front of it, if `cols` is what is open after closing. -/
def Lx.body (l : Lx) (cols : List Nat) : List Token :=
  (if endsBlocks l.data = true ∧ l.level = 0 then blockEnds l.start cols else []) ++
  ((l.opening cols).toList.map fun d => { data := d, start := l.pos, stop := l.pos }) ++
  (if l.keyed = true ∧ l.data ≠ .value then [{ data := .key, start := l.pos, stop := l.pos }] else []) ++ [l.token]

/-- What is open behind it. -/
def Lx.leaves (l : Lx) (cols : List Nat) : List Nat :=
  if endsBlocks l.data = true ∧ l.level = 0 then []
  else if (l.opening cols).isSome then l.pos.column :: cols else cols

/-- The tokens of lexemes, if these block collections are open. -/
def layout (cols : List Nat) : List Lx → List Token
  | [] => []
  | l :: ls => l.closing cols ++ l.body (l.within cols) ++ layout (l.leaves (l.within cols)) ls

/-- What is open behind them. -/
def openBlocks (cols : List Nat) : List Lx → List Nat
  | [] => cols
  | l :: ls => openBlocks (l.leaves (l.within cols)) ls

/-! ### Implicit keys -/

/-- On the nesting level `lv`, a key may have started with `l`: it is the last lexeme of this level where a key could start, and only parts of the
same node have followed on this level. -/
structure Pending (ls : List Lx) (lv : Nat) (pre : List Lx) (l : Lx) (post : List Lx) : Prop where
  eq : ls = pre ++ l :: post
  level : l.level = lv
  free : l.free = true
  opens : opensKey l.data = true
  rest : ∀ x ∈ post, lv ≤ x.level ∧ (x.level = lv → opensKey x.data = true ∧ x.free = false)

/-- An implicit key is on one line and no longer than 1024 characters. -/
def Lx.reaches (l : Lx) (m : Mark) : Prop := l.pos.line = m.line ∧ m.index ≤ l.pos.index + 1024

/-- In a block mapping an entry must have a `:`: what starts in the column of the innermost block collection must be a key. -/
def Required (pre : List Lx) (l : Lx) : Prop :=
  l.level = 0 ∧ indentOf (l.within (openBlocks [] pre)) = l.pos.column

/-- The lexeme at `m` with this data: does it end the time in which a key may be pending? -/
def endsPending (d : TokData) (free : Bool) : Bool := if opensKey d then free else d != .value

/-- Required keys do not get lost at the lexeme `d` at `m` on the level `lv`: not by the end of the line, not by what follows outside of flow
collections, and not by the end of the stream, even inside of a flow collection. -/
def KeyKept (ls : List Lx) (lv : Nat) (m : Mark) (d : TokData) (free : Bool) : Prop :=
  ∀ pre l post, Pending ls 0 pre l post → Required pre l → l.reaches m ∧ (lv = 0 ∨ d = .streamEnd → endsPending d free = false)

/-- The lexemes so far, with the implicit key marked if the lexeme `d` at `m` is the `:` behind it; and whether it is. -/
inductive Marked (ls : List Lx) (lv : Nat) (m : Mark) (d : TokData) : List Lx → Bool → Prop
  | other : d ≠ .value → Marked ls lv m d ls false
  | implicit {pre l post} : d = .value → Pending ls lv pre l post → l.reaches m → Marked ls lv m d (pre ++ { l with keyed := true } :: post) true
  | explicit : d = .value → (∀ pre l post, Pending ls lv pre l post → ¬ l.reaches m) → Marked ls lv m d ls false

/-! ### Lexemes -/

/-- The beginning of a plain scalar: no white space, not an indicator; but `-` and, in the block context, `?` and `:` without white space behind them. -/
def PlainFirst (flow : Bool) (cs : List Nat) : Prop :=
  ∃ c r, cs = c :: r ∧ ((¬ White c ∧ c ∉ [0x2D, 0x3F, 0x3A, 0x2C, 0x5B, 0x5D, 0x7B, 0x7D, 0x23, 0x26, 0x2A, 0x21, 0x7C, 0x3E, 0x27, 0x22, 0x25, 0x40, 0x60]) ∨
    ((c = 0x2D ∨ flow = false ∧ (c = 0x3F ∨ c = 0x3A)) ∧ Heads (fun d => ¬ White d) r))

/-- The text `cs` consists of `mid` behind something that does not end with white space, and `mid` is white space and `rest`. -/
def Trimmed (cs mid rest : List Nat) : Prop :=
  ∃ a b, cs = a ++ mid ∧ mid = b ++ rest ∧ (∀ x ∈ b, Blank x ∨ Brk x) ∧ ∃ a' c, a = a' ++ [c] ∧ ¬ White c

/-- The text `cs` in column `col` begins with this lexeme, and then comes `rest`. The lexeme ends in front of `mid`: the white space behind plain
scalars, directives and block scalars is read with them. For a plain scalar `line` says whether there is a line break behind
it. `indent` is the indentation, `flow` the context. -/
inductive Lexeme (flow : Bool) (indent : Int) (col : Nat) : List Nat → TokData → List Nat → List Nat → Bool → Prop
  | streamEnd (r) : Lexeme flow indent col (0 :: r) .streamEnd (0 :: r) (0 :: r) false
  | version {cs j k mid rest} : col = 0 → VersionAt cs j k mid rest → Lexeme flow indent col (0x25 :: cs) (.versionDirective ⟨j, k⟩) mid rest false
  | tagDirective {cs h p mid rest} : col = 0 → TagDirAt cs h p mid rest → Lexeme flow indent col (0x25 :: cs) (.tagDirective ⟨h, p⟩) mid rest false
  | documentStart (d r) : col = 0 → White d → Lexeme flow indent col (0x2D :: 0x2D :: 0x2D :: d :: r) .documentStart (d :: r) (d :: r) false
  | documentEnd (d r) : col = 0 → White d → Lexeme flow indent col (0x2E :: 0x2E :: 0x2E :: d :: r) .documentEnd (d :: r) (d :: r) false
  | flowSequenceStart (r) : Lexeme flow indent col (0x5B :: r) .flowSequenceStart r r false
  | flowMappingStart (r) : Lexeme flow indent col (0x7B :: r) .flowMappingStart r r false
  | flowSequenceEnd (r) : Lexeme flow indent col (0x5D :: r) .flowSequenceEnd r r false
  | flowMappingEnd (r) : Lexeme flow indent col (0x7D :: r) .flowMappingEnd r r false
  | flowEntry (r) : Lexeme flow indent col (0x2C :: r) .flowEntry r r false
  | blockEntry (r) : Heads White r → Lexeme flow indent col (0x2D :: r) .blockEntry r r false
  | key (r) : flow = true ∨ Heads White r → Lexeme flow indent col (0x3F :: r) .key r r false
  | value (r) : flow = true ∨ Heads White r → Lexeme flow indent col (0x3A :: r) .value r r false
  | anchor {cs v rest} : AnchorName cs v rest → Lexeme flow indent col (0x26 :: cs) (.anchor v) rest rest false
  | alias {cs v rest} : AnchorName cs v rest → Lexeme flow indent col (0x2A :: cs) (.alias v) rest rest false
  | tag {cs h v rest} : TagAt flow (0x21 :: cs) h v rest → Lexeme flow indent col (0x21 :: cs) (.tag h v) rest rest false
  | literal {cs v mid rest} : flow = false → BlockScalar true indent cs v mid rest → Lexeme flow indent col (0x7C :: cs) (.scalar v .literal) mid rest false
  | folded {cs v mid rest} : flow = false → BlockScalar false indent cs v mid rest → Lexeme flow indent col (0x3E :: cs) (.scalar v .folded) mid rest false
  | single {cs v rest} : Quoted true (col + 1) cs v rest → Lexeme flow indent col (0x27 :: cs) (.scalar v .single) rest rest false
  | double {cs v rest} : Quoted false (col + 1) cs v rest → Lexeme flow indent col (0x22 :: cs) (.scalar v .double) rest rest false
  | plain {cs v mid rest line} : PlainFirst flow cs → ¬ DocAt col cs → Plain flow (indent + 1) col cs v rest line → Trimmed cs mid rest →
      Lexeme flow indent col cs (.scalar v .plain) mid rest line

/-- May an implicit key start behind the lexeme? Not before the next line, unless it is an indicator that opens or separates entries. -/
def freeAfter (flow : Bool) (d : TokData) (keyed line : Bool) : Bool :=
  match d with
  | .flowSequenceStart | .flowMappingStart | .flowEntry | .blockEntry => true
  | .key => !flow
  | .value => !keyed && !flow
  | .scalar _ s => if s = .literal ∨ s = .folded then true else line
  | _ => false

/-- The number of open flow collections behind the lexeme. -/
def levelAfter (lv : Nat) (d : TokData) : Nat :=
  match d with
  | .flowSequenceStart | .flowMappingStart => lv + 1
  | .flowSequenceEnd | .flowMappingEnd => lv - 1
  | _ => lv

/-- Where the token of the lexeme at `pos` ends, if the lexeme ends at `fin`. -/
def stopAt (d : TokData) (pos fin : Mark) : Mark := if d = .streamEnd then nextLine pos else fin

/-- In the block context `-`, `?` and a `:` without an implicit key need a place where an implicit key could start. -/
def needsFree (d : TokData) (keyed : Bool) : Bool :=
  match d with
  | .blockEntry | .key => true
  | .value => !keyed
  | _ => false

/-- The text `T` begins with these lexemes and then the part `u` of the text is consumed, `lv` flow collections are open, and `key` says whether
an implicit key may start. -/
inductive Lexed (T : List Nat) : List Lx → List Nat → Nat → Bool → Prop
  | start : Lexed T [] [] 0 true
  /-- White space and comments `w`, then the lexeme, which takes the text `v` with the white space behind it and the text `x` without. -/
  | next {ls u lv key} {w v x mid rest : List Nat} {key' kd line : Bool} {ls' : List Lx} {d : TokData} : Lexed T ls u lv key →
      (∀ x ∈ ls, x.data ≠ .streamEnd) →
      T = u ++ (w ++ (v ++ rest)) →
      Filler (decide (lv ≠ 0)) key (lastColumn u) (w ++ (v ++ rest)) key' (v ++ rest) →
      Lexeme (decide (lv ≠ 0)) (indentOf (if lv = 0 then stillOpen (lastColumn (u ++ w)) (openBlocks [] ls) else openBlocks [] ls)) (lastColumn (u ++ w))
        (v ++ rest) d mid rest line →
      v ++ rest = x ++ mid →
      Marked ls lv (markOf (u ++ w)) d ls' kd →
      KeyKept ls lv (markOf (u ++ w)) d key' →
      (lv = 0 → needsFree d kd = true → key' = true) →
      Lexed T (ls' ++ [{ data := d, pos := markOf (u ++ w), stop := stopAt d (markOf (u ++ w)) (markOf (u ++ (w ++ x))), level := lv, free := key', keyed := kd }]) (u ++ (w ++ v)) (levelAfter lv d)
        (freeAfter (decide (lv ≠ 0)) d kd line)

end LibYaml.Spec
