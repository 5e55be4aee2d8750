import Verif.Model.Lexer
import Verif.Model.Writer
import Verif.Spec.Octets

/-!
# Model of `src/emitter.c` and of the emitter settings of `src/api.c`

Representation.

* Text is a list of code points; byte lengths (`strlen`, `length` fields) are lengths of the encoding.
* An emitter function maps the emitter to a result `Res`: the operations on the environment in order (output, explicit
  flush, memory allocation), each with the emitter state at that moment, then the outcome and the final state. The
  outcome is the one with all operations successful. `Res.exec` performs the operations in an environment and stops at
  the first that fails, leaving the emitter in the state of that moment; this is the `return 0` after a failing `PUT`,
  `yaml_emitter_flush` or `PUSH`. So the model covers every pattern of failing writes and allocations.
* The state stacks are lists with the top first, the event queue and the tag directives are lists in order.
  `Model/Containers.lean` has the arrays behind them.
* Line, column and indentation are unbounded integers instead of `int`.
* `YAML_NO_EVENT` is not an event of the model. `YAML_ANY_ENCODING`, `YAML_ANY_BREAK` and `NULL` are `none`.
-/

namespace LibYaml

open LibYaml.Spec (Enc)

/-- yaml.h:104-127 `yaml_break_t` without `YAML_ANY_BREAK`. -/
inductive Break | cr | ln | crln
  deriving DecidableEq, Repr

/-- yaml.h:1499-1539 `yaml_emitter_state_t` -/
inductive EState
  | streamStart
  | firstDocumentStart
  | documentStart
  | documentContent
  | documentEnd
  | flowSequenceFirstItem
  | flowSequenceItem
  | flowMappingFirstKey
  | flowMappingKey
  | flowMappingSimpleValue
  | flowMappingValue
  | blockSequenceFirstItem
  | blockSequenceItem
  | blockMappingFirstKey
  | blockMappingKey
  | blockMappingSimpleValue
  | blockMappingValue
  | ended
  deriving DecidableEq, Repr

/-- yaml.h:1743-1765 `scalar_data` (the length is implied by the value). -/
structure ScalarData where
  value : Text := []
  multiline : Bool := false
  flowPlainAllowed : Bool := false
  blockPlainAllowed : Bool := false
  singleQuotedAllowed : Bool := false
  blockAllowed : Bool := false
  style : ScalarStyle := .any
  deriving DecidableEq, Repr

/-- yaml.h:1560-1790 `yaml_emitter_t`, the emitter part. The defaults are the zeros of `yaml_emitter_initialize`
(api.c:354-388). -/
structure Emitter where
  encoding : Option Enc := none
  canonical : Bool := false
  bestIndent : Int := 0
  bestWidth : Int := 0
  unicode : Bool := false
  lineBreak : Option Break := none
  states : List EState := []
  state : EState := .streamStart
  events : List EvData := []
  indents : List Int := []
  tags : List TagDir := []
  indent : Int := 0
  flowLevel : Int := 0
  rootContext : Bool := false
  sequenceContext : Bool := false
  mappingContext : Bool := false
  simpleKeyContext : Bool := false
  line : Nat := 0
  column : Nat := 0
  whitespace : Bool := false
  indention : Bool := false
  openEnded : Nat := 0
  anchor : Option Text := none
  anchorIsAlias : Bool := false
  tagHandle : Option Text := none
  tagSuffix : Option Text := none
  scalar : ScalarData := {}
  deriving DecidableEq, Repr

/-! ### Settings (api.c:510-577) -/

/-- `INT_MAX` -/
def cIntMax : Int := 2147483647

/-- api.c:510-517 `yaml_emitter_set_encoding`; `none` = failed assertion. -/
def Emitter.setEncoding (s : Emitter) (enc : Option Enc) : Option Emitter :=
  if s.encoding.isSome then none else some { s with encoding := enc }

/-- api.c:523-529 `yaml_emitter_set_canonical` -/
def Emitter.setCanonical (s : Emitter) (canonical : Bool) : Emitter := { s with canonical := canonical }

/-- api.c:535-541 `yaml_emitter_set_indent` -/
def Emitter.setIndent (s : Emitter) (indent : Int) : Emitter :=
  { s with bestIndent := if 1 < indent ∧ indent < 10 then indent else 2 }

/-- api.c:547-553 `yaml_emitter_set_width` -/
def Emitter.setWidth (s : Emitter) (width : Int) : Emitter :=
  { s with bestWidth := if width ≥ 0 then width else -1 }

/-- api.c:559-565 `yaml_emitter_set_unicode` -/
def Emitter.setUnicode (s : Emitter) (unicode : Bool) : Emitter := { s with unicode := unicode }

/-- api.c:571-577 `yaml_emitter_set_break` -/
def Emitter.setBreak (s : Emitter) (br : Option Break) : Emitter := { s with lineBreak := br }

/-! ### Computations -/

/-- An operation on the environment: output of characters through `FLUSH` and an explicit flush (`WOp`), or an
allocation (`PUSH`, `ENQUEUE`, `yaml_strdup`; most of them do not allocate, then the environment lets them pass). -/
inductive EOp
  | out (op : WOp)
  | alloc

/-- Failures: `YAML_EMITTER_ERROR` with its problem; undefined behaviour; a return of 0 without an error. Failures of
the environment (`YAML_WRITER_ERROR`, `YAML_MEMORY_ERROR`) appear in `Res.exec`. -/
inductive EFail
  | emitter (problem : String)
  | ub
  | silent
  deriving DecidableEq, Repr

/-- The result of an emitter function. -/
structure Res (α : Type) where
  ops : List (EOp × Emitter)
  val : Except EFail α
  st : Emitter

/-- An emitter function. -/
def EM (α : Type) := Emitter → Res α

def EM.pure {α : Type} (a : α) : EM α := fun s => ⟨[], .ok a, s⟩

def EM.bind {α β : Type} (m : EM α) (k : α → EM β) : EM β := fun s =>
  match (m s).val with
  | .ok a => ⟨(m s).ops ++ (k a (m s).st).ops, (k a (m s).st).val, (k a (m s).st).st⟩
  | .error e => ⟨(m s).ops, .error e, (m s).st⟩

instance : Monad EM := { pure := EM.pure, bind := EM.bind }

/-- The emitter. -/
def getE : EM Emitter := fun s => ⟨[], .ok s, s⟩

/-- Assign fields. -/
def modE (f : Emitter → Emitter) : EM Unit := fun s => ⟨[], .ok (), f s⟩

/-- An operation on the environment. -/
def opE (op : EOp) : EM Unit := fun s => ⟨[(op, s)], .ok (), s⟩

/-- emitter.c:268-275 `yaml_emitter_set_emitter_error` -/
def failE {α : Type} (problem : String) : EM α := fun s => ⟨[], .error (.emitter problem), s⟩

/-- Undefined behaviour. -/
def ubE {α : Type} : EM α := fun s => ⟨[], .error .ub, s⟩

/-- `if (b) { if (!m) return 0; }` -/
def whenE (b : Bool) (m : EM Unit) : EM Unit := if b then m else Pure.pure ()

/-- The environment performs operations; `false` = failure. -/
def Env (σ : Type) := EOp → σ → Bool × σ

/-- Perform operations in order up to the first failure, which gives the emitter of that moment. -/
def execOps {σ : Type} (E : Env σ) : List (EOp × Emitter) → σ → Option Emitter × σ
  | [], x => (none, x)
  | (op, s) :: ops, x =>
    match E op x with
    | (true, x) => execOps E ops x
    | (false, x) => (some s, x)

/-- What a call did: succeeded, failed with an emitter error, or failed because the environment did. -/
inductive Outcome | ok | failed (e : EFail) | environment
  deriving DecidableEq, Repr

/-- An emitter function in an environment. -/
def Res.exec {α σ : Type} (E : Env σ) (r : Res α) (x : σ) : Outcome × Emitter × σ :=
  match execOps E r.ops x with
  | (some s, x) => (.environment, s, x)
  | (none, x) =>
    match r.val with
    | .ok _ => (.ok, r.st, x)
    | .error e => (.failed e, r.st, x)

/-- The characters written. -/
def opsText : List (EOp × Emitter) → Text
  | [] => []
  | (.out op, _) :: ops => op.text ++ opsText ops
  | (.alloc, _) :: ops => opsText ops

/-- The characters written. -/
def Res.text {α : Type} (r : Res α) : Text := opsText r.ops

/-! ### Output macros (emitter.c:8-62) -/

/-- `FLUSH` and a store of characters. -/
def outE (cs : Text) : EM Unit := opE (.out (.chars cs))

/-- emitter.c:16-20 `PUT`; also emitter.c:43-47 `WRITE` of one character. -/
def putC (c : Nat) : EM Unit := do
  outE [c]
  modE fun s => { s with column := s.column + 1 }

/-- The characters of the preferred line break. -/
def brkText : Option Break → Text
  | some .cr => [0xD]
  | some .ln => [0xA]
  | some .crln => [0xD, 0xA]
  | none => []

/-- emitter.c:26-37 `PUT_BREAK` -/
def putBreak : EM Unit := do
  outE (brkText (← getE).lineBreak)
  modE fun s => { s with column := 0, line := s.line + 1 }

/-- emitter.c:53-62 `WRITE_BREAK` of the line break character `c` -/
def writeBreak (c : Nat) : EM Unit := do
  if c == 0xA then putBreak
  else
    outE [c]
    modE fun s => { s with column := 0, line := s.line + 1 }

/-- `while (string.pointer != string.end) { if (!WRITE(emitter, string)) return 0; }` -/
def writeAll : Text → EM Unit
  | [] => pure ()
  | c :: cs => do
    putC c
    writeAll cs

/-- `emitter->whitespace = w; emitter->indention = i;` -/
def setWs (w i : Bool) : EM Unit := modE fun s => { s with whitespace := w, indention := i }

/-- emitter.c:1776-1785 `yaml_emitter_write_bom`. The output operation emits the three bytes of U+FEFF. -/
def writeBom : EM Unit := outE [0xFEFF]

/-- emitter.c:1797-1799: `while (emitter->column < indent) PUT(' ')`, `n` times. -/
def putSpaces : Nat → EM Unit
  | 0 => pure ()
  | n + 1 => do
    putC (c! ' ')
    putSpaces n

/-- emitter.c:1790 -/
def Emitter.indentCol (s : Emitter) : Nat := s.indent.toNat

/-- emitter.c:1792-1793 -/
def Emitter.needBreak (s : Emitter) : Bool :=
  !s.indention || decide (s.column > s.indentCol) || (s.column == s.indentCol && !s.whitespace)

/-- emitter.c:1788-1806 `yaml_emitter_write_indent` -/
def writeIndent : EM Unit := do
  whenE (← getE).needBreak putBreak
  putSpaces ((← getE).indentCol - (← getE).column)
  setWs true true

/-- emitter.c:1808-1831 `yaml_emitter_write_indicator` -/
def writeIndicator (indicator : Text) (needWhitespace isWhitespace isIndention : Bool) : EM Unit := do
  whenE (needWhitespace && !(← getE).whitespace) (putC (c! ' '))
  writeAll indicator
  modE fun s => { s with whitespace := isWhitespace, indention := s.indention && isIndention }

/-- emitter.c:1833-1848 `yaml_emitter_write_anchor` -/
def writeAnchor (value : Text) : EM Unit := do
  writeAll value
  setWs false false

/-- emitter.c:1850-1869 `yaml_emitter_write_tag_handle` -/
def writeTagHandle (value : Text) : EM Unit := do
  whenE (!(← getE).whitespace) (putC (c! ' '))
  writeAll value
  setWs false false

/-- emitter.c:1885-1895: the characters of a tag that are written unescaped. -/
def tagChar (c : Nat) : Bool :=
  isAlpha c || c == c! ';' || c == c! '/' || c == c! '?' || c == c! ':' || c == c! '@' || c == c! '&' || c == c! '='
    || c == c! '+' || c == c! '$' || c == c! ',' || c == c! '_' || c == c! '.' || c == c! '~' || c == c! '*'
    || c == c! '\'' || c == c! '(' || c == c! ')' || c == c! '[' || c == c! ']'

/-- `d + (d < 10 ? '0' : 'A' - 10)` -/
def hexChar (d : Nat) : Nat := if d < 10 then c! '0' + d else c! 'A' - 10 + d

/-- emitter.c:1902-1909: percent escapes of bytes. -/
def writeEscapes : List UInt8 → EM Unit
  | [] => pure ()
  | b :: bs => do
    putC (c! '%')
    putC (hexChar (b.toNat >>> 4))
    putC (hexChar (b.toNat &&& 0x0F))
    writeEscapes bs

/-- emitter.c:1884-1912 -/
def writeTagChars : Text → EM Unit
  | [] => pure ()
  | c :: cs => do
    (if tagChar c then putC c else writeEscapes (Spec.octets c))
    writeTagChars cs

/-- emitter.c:1871-1917 `yaml_emitter_write_tag_content` -/
def writeTagContent (value : Text) (needWhitespace : Bool) : EM Unit := do
  whenE (needWhitespace && !(← getE).whitespace) (putC (c! ' '))
  writeTagChars value
  setWs false false

/-! ### Scalars -/

/-- yaml_private.h:251-252 `IS_ASCII` -/
def isAscii (c : Nat) : Bool := c ≤ 0x7F

/-- yaml_private.h:260-277 `IS_PRINTABLE`, on a decoded character: bytes `C2 A0` to `ED 9F BF` are U+00A0 to U+D7FF,
`EE` and `EF` start U+E000 to U+FFFF. Longer encodings are not printable. -/
def isPrintable (c : Nat) : Bool :=
  c == 0xA || (0x20 ≤ c && c ≤ 0x7E) || (0xA0 ≤ c && c ≤ 0xD7FF)
    || (0xE000 ≤ c && c ≤ 0xFFFF && !(c == 0xFEFF) && !(c == 0xFFFE || c == 0xFFFF))

/-- The next character of a string, which ends with a NUL. -/
def nextC : Text → Nat
  | [] => 0
  | c :: _ => c

/-- `emitter->column > emitter->best_width` -/
def Emitter.overWidth (s : Emitter) : Bool := decide ((s.column : Int) > s.bestWidth)

/-- emitter.c:1943-1975: the loop of `yaml_emitter_write_plain_scalar`. -/
def plainLoop (allowBreaks : Bool) : Text → Bool → Bool → EM Unit
  | [], _, _ => pure ()
  | c :: cs, spaces, breaks => do
    if isSpace c then
      let s ← getE
      (if allowBreaks && !spaces && s.overWidth && !isSpace (nextC cs) then writeIndent else putC c)
      plainLoop allowBreaks cs true breaks
    else if isBreak c then
      whenE (!breaks && c == 0xA) putBreak
      writeBreak c
      modE fun s => { s with indention := true }
      plainLoop allowBreaks cs spaces true
    else
      whenE breaks writeIndent
      putC c
      modE fun s => { s with indention := false }
      plainLoop allowBreaks cs false false

/-- emitter.c:1919-1983 `yaml_emitter_write_plain_scalar` -/
def writePlain (value : Text) (allowBreaks : Bool) : EM Unit := do
  let s ← getE
  whenE (!s.whitespace && (!value.isEmpty || s.flowLevel != 0)) (putC (c! ' '))
  plainLoop allowBreaks value false false
  setWs false false

/-- emitter.c:1998-2036: the loop of `yaml_emitter_write_single_quoted_scalar`; `first`: at the start of the string. The
result is the final `breaks`. -/
def singleLoop (allowBreaks : Bool) : Text → Bool → Bool → Bool → EM Bool
  | [], _, _, breaks => pure breaks
  | c :: cs, first, spaces, breaks => do
    if isSpace c then
      let s ← getE
      (if allowBreaks && !spaces && s.overWidth && !first && !cs.isEmpty && !isSpace (nextC cs) then writeIndent
        else putC c)
      singleLoop allowBreaks cs false true breaks
    else if isBreak c then
      whenE (!breaks && c == 0xA) putBreak
      writeBreak c
      modE fun s => { s with indention := true }
      singleLoop allowBreaks cs false spaces true
    else
      whenE breaks writeIndent
      whenE (c == c! '\'') (putC (c! '\''))
      putC c
      modE fun s => { s with indention := false }
      singleLoop allowBreaks cs false false false

/-- emitter.c:1985-2049 `yaml_emitter_write_single_quoted_scalar` -/
def writeSingle (value : Text) (allowBreaks : Bool) : EM Unit := do
  writeIndicator [c! '\''] true false false
  let breaks ← singleLoop allowBreaks value true false false
  whenE breaks writeIndent
  writeIndicator [c! '\''] false false false
  setWs false false

/-- emitter.c:2153-2157: the lowest `n` hexadecimal digits of a value, highest first. -/
def hexDigits (value : Nat) : Nat → Text
  | 0 => []
  | n + 1 => hexChar ((value >>> (4 * n)) &&& 0x0F) :: hexDigits value n

/-- emitter.c:2092-2158: what follows the backslash. -/
def escapeText (value : Nat) : Text :=
  if value == 0x00 then [c! '0']
  else if value == 0x07 then [c! 'a']
  else if value == 0x08 then [c! 'b']
  else if value == 0x09 then [c! 't']
  else if value == 0x0A then [c! 'n']
  else if value == 0x0B then [c! 'v']
  else if value == 0x0C then [c! 'f']
  else if value == 0x0D then [c! 'r']
  else if value == 0x1B then [c! 'e']
  else if value == 0x22 then [c! '"']
  else if value == 0x5C then [c! '\\']
  else if value == 0x85 then [c! 'N']
  else if value == 0xA0 then [c! '_']
  else if value == 0x2028 then [c! 'L']
  else if value == 0x2029 then [c! 'P']
  else if value ≤ 0xFF then c! 'x' :: hexDigits value 2
  else if value ≤ 0xFFFF then c! 'u' :: hexDigits value 4
  else c! 'U' :: hexDigits value 8

/-- emitter.c:2065-2067: the characters that are escaped. -/
def mustEscape (unicode : Bool) (c : Nat) : Bool :=
  !isPrintable c || (!unicode && !isAscii c) || isBom c || isBreak c || c == c! '"' || c == c! '\\'

/-- emitter.c:2063-2196: the loop of `yaml_emitter_write_double_quoted_scalar`. -/
def doubleLoop (allowBreaks : Bool) : Text → Bool → Bool → EM Unit
  | [], _, _ => pure ()
  | c :: cs, first, spaces => do
    let s ← getE
    if mustEscape s.unicode c then
      putC (c! '\\')
      writeAll (escapeText c)
      doubleLoop allowBreaks cs false false
    else if isSpace c then
      (if allowBreaks && !spaces && s.overWidth && !first && !cs.isEmpty then do
          writeIndent
          whenE (isSpace (nextC cs)) (putC (c! '\\'))
        else putC c)
      doubleLoop allowBreaks cs false true
    else
      putC c
      doubleLoop allowBreaks cs false false

/-- emitter.c:2051-2205 `yaml_emitter_write_double_quoted_scalar` -/
def writeDouble (value : Text) (allowBreaks : Bool) : EM Unit := do
  writeIndicator [c! '"'] true false false
  doubleLoop allowBreaks value true false
  writeIndicator [c! '"'] false false false
  setWs false false

/-- emitter.c:2224-2254: the chomping indicator and the new value of `open_ended`, from the reversed text. -/
def chompHint : Text → Text × Nat
  | [] => ([c! '-'], 0)
  | [c] => if isBreak c then ([c! '+'], 2) else ([c! '-'], 0)
  | c :: d :: _ => if isBreak c then (if isBreak d then ([c! '+'], 2) else ([], 0)) else ([c! '-'], 0)

/-- emitter.c:2207-2263 `yaml_emitter_write_block_scalar_hints` -/
def writeHints (value : Text) : EM Unit := do
  whenE (isSpace (nextC value) || isBreak (nextC value))
    (do writeIndicator [c! '0' + (← getE).bestIndent.toNat] false false false)
  modE fun s => { s with openEnded := (chompHint value.reverse).2 }
  whenE (!(chompHint value.reverse).1.isEmpty) (writeIndicator (chompHint value.reverse).1 false false false)

/-- emitter.c:2282-2299: the loop of `yaml_emitter_write_literal_scalar`. -/
def literalLoop : Text → Bool → EM Unit
  | [], _ => pure ()
  | c :: cs, breaks => do
    if isBreak c then
      writeBreak c
      modE fun s => { s with indention := true }
      literalLoop cs true
    else
      whenE breaks writeIndent
      putC c
      modE fun s => { s with indention := false }
      literalLoop cs false

/-- emitter.c:2265-2302 `yaml_emitter_write_literal_scalar` -/
def writeLiteral (value : Text) : EM Unit := do
  writeIndicator [c! '|'] true false false
  writeHints value
  putBreak
  setWs true true
  literalLoop value true

/-- emitter.c:2322-2357: the loop of `yaml_emitter_write_folded_scalar`. -/
def foldedLoop : Text → Bool → Bool → EM Unit
  | [], _, _ => pure ()
  | c :: cs, breaks, leadingSpaces => do
    if isBreak c then
      whenE (!breaks && !leadingSpaces && c == 0xA && !isBlankz (nextC (cs.dropWhile isBreak))) putBreak
      writeBreak c
      modE fun s => { s with indention := true }
      foldedLoop cs true leadingSpaces
    else
      whenE breaks writeIndent
      let s ← getE
      (if !breaks && isSpace c && !isSpace (nextC cs) && s.overWidth then writeIndent else putC c)
      modE fun s => { s with indention := false }
      foldedLoop cs false (if breaks then isBlank c else leadingSpaces)

/-- emitter.c:2304-2360 `yaml_emitter_write_folded_scalar` -/
def writeFolded (value : Text) : EM Unit := do
  writeIndicator [c! '>'] true false false
  writeHints value
  putBreak
  setWs true true
  foldedLoop value true true

/-- emitter.c:1313-1346 `yaml_emitter_process_scalar` -/
def processScalar : EM Unit := do
  let s ← getE
  match s.scalar.style with
  | .plain => writePlain s.scalar.value !s.simpleKeyContext
  | .single => writeSingle s.scalar.value !s.simpleKeyContext
  | .double => writeDouble s.scalar.value !s.simpleKeyContext
  | .literal => writeLiteral s.scalar.value
  | .folded => writeFolded s.scalar.value
  | .any => fun s => ⟨[], .error .silent, s⟩

/-- emitter.c:1260-1272 `yaml_emitter_process_anchor` -/
def processAnchor : EM Unit := do
  let s ← getE
  match s.anchor with
  | none => pure ()
  | some a =>
    writeIndicator (if s.anchorIsAlias then [c! '*'] else [c! '&']) true false false
    writeAnchor a

/-- emitter.c:1278-1307 `yaml_emitter_process_tag` -/
def processTag : EM Unit := do
  let s ← getE
  match s.tagHandle, s.tagSuffix with
  | none, none => pure ()
  | some h, none => writeTagHandle h
  | some h, some x =>
    writeTagHandle h
    writeTagContent x false
  | none, some x =>
    writeIndicator [c! '!', c! '<'] true false false
    writeTagContent x false
    writeIndicator [c! '>'] false false false

/-! ### Analysis -/

/-- The flags of `yaml_emitter_analyze_scalar` (emitter.c:1507-1523). `followed_by_whitespace` is recomputed from the
rest of the string. -/
structure Flags where
  blockIndicators : Bool := false
  flowIndicators : Bool := false
  lineBreaks : Bool := false
  specialCharacters : Bool := false
  leadingSpace : Bool := false
  leadingBreak : Bool := false
  trailingSpace : Bool := false
  trailingBreak : Bool := false
  breakSpace : Bool := false
  spaceBreak : Bool := false
  precededByWhitespace : Bool := false
  previousSpace : Bool := false
  previousBreak : Bool := false
  deriving DecidableEq, Repr

/-- emitter.c:1559-1566: indicators at the start of a scalar. -/
def startIndicator (c : Nat) : Bool :=
  c == c! '#' || c == c! ',' || c == c! '[' || c == c! ']' || c == c! '{' || c == c! '}' || c == c! '&' || c == c! '*'
    || c == c! '!' || c == c! '|' || c == c! '>' || c == c! '\'' || c == c! '"' || c == c! '%' || c == c! '@'
    || c == c! '`'

/-- emitter.c:1586-1588: indicators of the flow style inside a scalar. -/
def innerIndicator (c : Nat) : Bool :=
  c == c! ',' || c == c! '?' || c == c! '[' || c == c! ']' || c == c! '{' || c == c! '}'

/-- emitter.c:1557-1604: indicators. -/
def flagIndicators (c : Nat) (first followed : Bool) (f : Flags) : Flags :=
  if first then
    let flow := startIndicator c || c == c! '?' || c == c! ':' || (c == c! '-' && followed)
    let block := startIndicator c || ((c == c! '?' || c == c! ':') && followed) || (c == c! '-' && followed)
    { f with flowIndicators := f.flowIndicators || flow, blockIndicators := f.blockIndicators || block }
  else
    let flow := innerIndicator c || c == c! ':' || (c == c! '#' && f.precededByWhitespace)
    let block := (c == c! ':' && followed) || (c == c! '#' && f.precededByWhitespace)
    { f with flowIndicators := f.flowIndicators || flow, blockIndicators := f.blockIndicators || block }

/-- emitter.c:1606-1613: special characters and line breaks. -/
def flagSpecial (unicode : Bool) (c : Nat) (f : Flags) : Flags :=
  { f with
    specialCharacters := f.specialCharacters || (!isPrintable c || (!isAscii c && !unicode)),
    lineBreaks := f.lineBreaks || isBreak c }

/-- emitter.c:1615-1653: spaces and breaks; `last`: this is the last character. -/
def flagSpaces (c : Nat) (first last : Bool) (f : Flags) : Flags :=
  if isSpace c then
    { f with
      leadingSpace := f.leadingSpace || first, trailingSpace := f.trailingSpace || last,
      breakSpace := f.breakSpace || f.previousBreak, previousSpace := true, previousBreak := false }
  else if isBreak c then
    { f with
      leadingBreak := f.leadingBreak || first, trailingBreak := f.trailingBreak || last,
      spaceBreak := f.spaceBreak || f.previousSpace, previousSpace := false, previousBreak := true }
  else { f with previousSpace := false, previousBreak := false }

/-- emitter.c:1555-1658: the loop over the characters. -/
def flagLoop (unicode : Bool) : Text → Bool → Flags → Flags
  | [], _, f => f
  | c :: cs, first, f =>
    let f := flagIndicators c first (isBlankz (nextC cs)) f
    let f := flagSpecial unicode c f
    let f := flagSpaces c first cs.isEmpty f
    flagLoop unicode cs false { f with precededByWhitespace := isBlankz c }

/-- emitter.c:1541-1550: `---` or `...` at the start. -/
def startsDocument (value : Text) : Bool :=
  [c! '-', c! '-', c! '-'].isPrefixOf value || [c! '.', c! '.', c! '.'].isPrefixOf value

/-- emitter.c:1507-1658: the flags of a scalar that is not empty. -/
def scalarFlags (unicode : Bool) (value : Text) : Flags :=
  flagLoop unicode value true
    { blockIndicators := startsDocument value, flowIndicators := startsDocument value, precededByWhitespace := true }

/-- emitter.c:1660-1695: what the flags allow. -/
def scalarData (value : Text) (f : Flags) : ScalarData :=
  let noPlain := f.leadingSpace || f.leadingBreak || f.trailingSpace || f.trailingBreak || f.breakSpace || f.spaceBreak
    || f.specialCharacters || f.lineBreaks
  { value := value
    multiline := f.lineBreaks
    flowPlainAllowed := !(noPlain || f.flowIndicators)
    blockPlainAllowed := !(noPlain || f.blockIndicators)
    singleQuotedAllowed := !(f.breakSpace || f.spaceBreak || f.specialCharacters)
    blockAllowed := !(f.trailingSpace || f.spaceBreak || f.specialCharacters) }

/-- emitter.c:1501-1698 `yaml_emitter_analyze_scalar`. The style keeps its old value. -/
def analyzeScalarData (unicode : Bool) (value : Text) : ScalarData :=
  if value.isEmpty then { value := value, blockPlainAllowed := true, singleQuotedAllowed := true }
  else scalarData value (scalarFlags unicode value)

/-- emitter.c:1501-1698 `yaml_emitter_analyze_scalar` -/
def analyzeScalar (value : Text) : EM Unit :=
  modE fun s => { s with scalar := { analyzeScalarData s.unicode value with style := s.scalar.style } }

/-- emitter.c:1352-1365 `yaml_emitter_analyze_version_directive` -/
def analyzeVersion (v : Version) : EM Unit :=
  if v.major ≠ 1 ∨ (v.minor ≠ 1 ∧ v.minor ≠ 2) then failE "incompatible %YAML directive" else pure ()

/-- emitter.c:1371-1416 `yaml_emitter_analyze_tag_directive` -/
def analyzeTagDirective (d : TagDir) : EM Unit :=
  if d.handle.isEmpty then failE "tag handle must not be empty"
  else if nextC d.handle != c! '!' then failE "tag handle must start with '!'"
  else if nextC d.handle.reverse != c! '!' then failE "tag handle must end with '!'"
  else if !(d.handle.tail.dropLast.all isAlpha) then failE "tag handle must contain alphanumerical characters only"
  else if d.pfx.isEmpty then failE "tag prefix must not be empty"
  else pure ()

/-- emitter.c:1422-1452 `yaml_emitter_analyze_anchor` -/
def analyzeAnchor (anchor : Text) (isAlias : Bool) : EM Unit := do
  if anchor.isEmpty then failE (if isAlias then "alias value must not be empty" else "anchor value must not be empty")
  else if !anchor.all isAlpha then
    failE (if isAlias then "alias value must contain alphanumerical characters only"
      else "anchor value must contain alphanumerical characters only")
  else modE fun s => { s with anchor := some anchor, anchorIsAlias := isAlias }

/-- Byte length of a string of characters. -/
def byteLen (t : Text) : Nat := (Spec.utf8s t).length

/-- `strlen`; tags may have octets that are no characters. -/
def strLen (t : Text) : Nat := (Spec.textBytes t).length

/-- emitter.c:1476-1480: does the directive apply to the tag? -/
def TagDir.fits (d : TagDir) (tag : Text) : Bool := decide (strLen d.pfx < strLen tag) && d.pfx.isPrefixOf tag

/-- emitter.c:1458-1495 `yaml_emitter_analyze_tag` -/
def analyzeTag (tag : Text) : EM Unit := do
  if tag.isEmpty then failE "tag value must not be empty"
  else
    let s ← getE
    match s.tags.find? fun d => d.fits tag with
    | some d => modE fun s => { s with tagHandle := some d.handle, tagSuffix := some (tag.drop d.pfx.length) }
    | none => modE fun s => { s with tagSuffix := some tag }

/-- `if (x) { if (!f(x)) return 0; }` -/
def someE {α : Type} (x : Option α) (f : α → EM Unit) : EM Unit :=
  match x with
  | none => pure ()
  | some a => f a

/-- The anchor and the tag of a node (emitter.c:1723-1733, 1740-1750, 1754-1764); `useTag`: the tag is written. -/
def analyzeProps (anchor tag : Option Text) (useTag : Bool) : EM Unit := do
  someE anchor fun a => analyzeAnchor a false
  whenE useTag (someE tag analyzeTag)

/-- emitter.c:1701-1770 `yaml_emitter_analyze_event` -/
def analyzeEvent (e : EvData) : EM Unit := do
  modE fun s => { s with anchor := none, tagHandle := none, tagSuffix := none, scalar := { s.scalar with value := [] } }
  let canonical := (← getE).canonical
  match e with
  | .alias a => analyzeAnchor a true
  | .scalar a t v p q _ =>
    analyzeProps a t (canonical || (!p && !q))
    analyzeScalar v
  | .sequenceStart a t i _ => analyzeProps a t (canonical || !i)
  | .mappingStart a t i _ => analyzeProps a t (canonical || !i)
  | _ => pure ()

/-! ### Utilities -/

/-- emitter.c:364-397 `yaml_emitter_append_tag_directive` -/
def appendTagDirective (d : TagDir) (allowDuplicates : Bool) : EM Unit := do
  if (← getE).tags.any fun t => t.handle == d.handle then
    if allowDuplicates then pure () else failE "duplicate %TAG directive"
  else
    opE .alloc
    modE fun s => { s with tags := s.tags ++ [d] }

/-- `PUSH(emitter, emitter->states, x)` -/
def pushStateE (x : EState) : EM Unit := do
  opE .alloc
  modE fun s => { s with states := x :: s.states }

/-- `emitter->state = POP(emitter, emitter->states)` -/
def popStateE : EM Unit := fun s =>
  match s.states with
  | [] => ubE s
  | x :: xs => ⟨[], .ok (), { s with state := x, states := xs }⟩

/-- `emitter->indent = POP(emitter, emitter->indents)` -/
def popIndent : EM Unit := fun s =>
  match s.indents with
  | [] => ubE s
  | x :: xs => ⟨[], .ok (), { s with indent := x, indents := xs }⟩

/-- emitter.c:409-415 -/
def Emitter.deeper (s : Emitter) (flow indentless : Bool) : Int :=
  if s.indent < 0 then (if flow then s.bestIndent else 0)
  else if !indentless then s.indent + s.bestIndent
  else s.indent

/-- emitter.c:403-418 `yaml_emitter_increase_indent` -/
def increaseIndent (flow indentless : Bool) : EM Unit := do
  opE .alloc
  modE fun s => { s with indents := s.indent :: s.indents, indent := s.deeper flow indentless }

/-- `emitter->state = x` -/
def setStateE (x : EState) : EM Unit := modE fun s => { s with state := x }

/-- emitter.c:1119-1127 `yaml_emitter_check_empty_sequence` -/
def Emitter.emptySequence (s : Emitter) : Bool :=
  match s.events with
  | .sequenceStart .. :: .sequenceEnd :: _ => true
  | _ => false

/-- emitter.c:1133-1141 `yaml_emitter_check_empty_mapping` -/
def Emitter.emptyMapping (s : Emitter) : Bool :=
  match s.events with
  | .mappingStart .. :: .mappingEnd :: _ => true
  | _ => false

/-- Byte length of an optional string; `NULL` has length 0. -/
def optLen : Option Text → Nat
  | none => 0
  | some t => strLen t

/-- emitter.c:1147-1192 `yaml_emitter_check_simple_key` -/
def Emitter.simpleKey (s : Emitter) : Bool :=
  let props := optLen s.anchor + optLen s.tagHandle + optLen s.tagSuffix
  match s.events with
  | .alias _ :: _ => decide (optLen s.anchor ≤ 128)
  | .scalar .. :: _ => !s.scalar.multiline && decide (props + byteLen s.scalar.value ≤ 128)
  | .sequenceStart .. :: _ => s.emptySequence && decide (props ≤ 128)
  | .mappingStart .. :: _ => s.emptyMapping && decide (props ≤ 128)
  | _ => false

/-- emitter.c:1209-1231: the requested style after the general rules and the rules for plain scalars. -/
def Emitter.plainRules (s : Emitter) (noTag plainImplicit : Bool) (style : ScalarStyle) : ScalarStyle :=
  let style := if style = .any then .plain else style
  let style := if s.canonical then .double else style
  let style := if s.simpleKeyContext && s.scalar.multiline then .double else style
  if style = .plain
      ∧ ((s.flowLevel ≠ 0 ∧ s.scalar.flowPlainAllowed = false) ∨ (s.flowLevel = 0 ∧ s.scalar.blockPlainAllowed = false)
        ∨ (s.scalar.value = [] ∧ (s.flowLevel ≠ 0 ∨ s.simpleKeyContext = true))
        ∨ (noTag = true ∧ plainImplicit = false)) then .single
  else style

/-- emitter.c:1233-1245: the rules for quoted and block scalars. -/
def Emitter.quotedRules (s : Emitter) (style : ScalarStyle) : ScalarStyle :=
  let style := if style = .single ∧ s.scalar.singleQuotedAllowed = false then .double else style
  if (style = .literal ∨ style = .folded)
      ∧ (s.scalar.blockAllowed = false ∨ s.flowLevel ≠ 0 ∨ s.simpleKeyContext = true) then .double
  else style

/-- emitter.c:1198-1254 `yaml_emitter_select_scalar_style` -/
def selectScalarStyle (plainImplicit quotedImplicit : Bool) (style : ScalarStyle) : EM Unit := do
  let s ← getE
  let noTag := s.tagHandle.isNone && s.tagSuffix.isNone
  if noTag && !plainImplicit && !quotedImplicit then failE "neither tag nor implicit flags are specified"
  else
    let style := s.quotedRules (s.plainRules noTag plainImplicit style)
    modE fun s => { s with
      tagHandle := if noTag && !quotedImplicit && style != .plain then some [c! '!'] else s.tagHandle
      scalar := { s.scalar with style := style } }

/-! ### States -/

/-- emitter.c:1022-1032 `yaml_emitter_emit_alias` -/
def emitAlias : EM Unit := do
  processAnchor
  whenE (← getE).simpleKeyContext (putC (c! ' '))
  popStateE

/-- emitter.c:1038-1055 `yaml_emitter_emit_scalar` -/
def emitScalar (plainImplicit quotedImplicit : Bool) (style : ScalarStyle) : EM Unit := do
  selectScalarStyle plainImplicit quotedImplicit style
  processAnchor
  processTag
  increaseIndent true false
  processScalar
  popIndent
  popStateE

/-- emitter.c:1061-1079 `yaml_emitter_emit_sequence_start` -/
def emitSequenceStart (style : CollStyle) : EM Unit := do
  processAnchor
  processTag
  let s ← getE
  setStateE (if s.flowLevel ≠ 0 ∨ s.canonical = true ∨ style = .flow ∨ s.emptySequence = true then .flowSequenceFirstItem
    else .blockSequenceFirstItem)

/-- emitter.c:1085-1103 `yaml_emitter_emit_mapping_start` -/
def emitMappingStart (style : CollStyle) : EM Unit := do
  processAnchor
  processTag
  let s ← getE
  setStateE (if s.flowLevel ≠ 0 ∨ s.canonical = true ∨ style = .flow ∨ s.emptyMapping = true then .flowMappingFirstKey
    else .blockMappingFirstKey)

/-- emitter.c:987-1016 `yaml_emitter_emit_node` -/
def emitNode (e : EvData) (root sequence mapping simpleKey : Bool) : EM Unit := do
  modE fun s => { s with
    rootContext := root, sequenceContext := sequence, mappingContext := mapping, simpleKeyContext := simpleKey }
  match e with
  | .alias _ => emitAlias
  | .scalar _ _ _ p q style => emitScalar p q style
  | .sequenceStart _ _ _ style => emitSequenceStart style
  | .mappingStart _ _ _ style => emitMappingStart style
  | _ => failE "expected SCALAR, SEQUENCE-START, MAPPING-START, or ALIAS"

/-- emitter.c:504-524: the settings chosen at the start of the stream. -/
def Emitter.normalize (s : Emitter) (enc : Option Enc) : Emitter :=
  let bestIndent := if s.bestIndent < 2 ∨ s.bestIndent > 9 then 2 else s.bestIndent
  let bestWidth := if s.bestWidth ≥ 0 ∧ s.bestWidth ≤ bestIndent * 2 then 80 else s.bestWidth
  let bestWidth := if bestWidth < 0 then cIntMax else bestWidth
  { s with
    encoding := some ((s.encoding.or enc).getD .utf8)
    bestIndent := bestIndent
    bestWidth := bestWidth
    lineBreak := some (s.lineBreak.getD .ln) }

/-- emitter.c:495-546 `yaml_emitter_emit_stream_start` -/
def emitStreamStart (e : EvData) : EM Unit := do
  modE fun s => { s with openEnded := 0 }
  match e with
  | .streamStart enc =>
    modE fun s => { s.normalize enc with indent := -1, line := 0, column := 0, whitespace := true, indention := true }
    whenE ((← getE).encoding != some .utf8) writeBom
    setStateE .firstDocumentStart
  | _ => failE "expected STREAM-START"

/-- emitter.c:571-578: the tag directives of the event. -/
def appendTags : List TagDir → EM Unit
  | [] => pure ()
  | d :: ds => do
    analyzeTagDirective d
    appendTagDirective d false
    appendTags ds

/-- emitter.c:557-561 `default_tag_directives` -/
def emitterDefaultTags : List TagDir :=
  [⟨[c! '!'], [c! '!']⟩,
   ⟨[c! '!', c! '!'], lit ['t','a','g',':','y','a','m','l','.','o','r','g',',','2','0','0','2',':']⟩]

/-- emitter.c:580-584 -/
def addDefaults : List TagDir → EM Unit
  | [] => pure ()
  | d :: ds => do
    appendTagDirective d true
    addDefaults ds

/-- emitter.c:602-617: the `%YAML` directive. -/
def writeVersion (v : Version) : EM Unit := do
  writeIndicator (lit ['%', 'Y', 'A', 'M', 'L']) true false false
  writeIndicator (if v.minor = 1 then lit ['1', '.', '1'] else lit ['1', '.', '2']) true false false
  writeIndent

/-- emitter.c:622-635: the `%TAG` directives. -/
def writeTags : List TagDir → EM Unit
  | [] => pure ()
  | d :: ds => do
    writeIndicator (lit ['%', 'T', 'A', 'G']) true false false
    writeTagHandle d.handle
    writeTagContent d.pfx true
    writeIndent
    writeTags ds

/-- `...` -/
def dots : Text := lit ['.', '.', '.']

/-- emitter.c:555-652: a document start. -/
def emitDocumentStartEvent (version : Option Version) (tags : List TagDir) (implicit first : Bool) : EM Unit := do
  someE version analyzeVersion
  appendTags tags
  addDefaults emitterDefaultTags
  whenE ((version.isSome || !tags.isEmpty) && (← getE).openEnded != 0)
    (do writeIndicator dots true false false; writeIndent)
  modE fun s => { s with openEnded := 0 }
  someE version writeVersion
  writeTags tags
  whenE (!(implicit && first && !(← getE).canonical && version.isNone && tags.isEmpty))
    (do
      writeIndent
      writeIndicator (lit ['-', '-', '-']) true false false
      whenE (← getE).canonical writeIndent)
  setStateE .documentContent
  modE fun s => { s with openEnded := 0 }

/-- emitter.c:656-679: the end of the stream. -/
def emitStreamEndEvent : EM Unit := do
  whenE ((← getE).openEnded == 2)
    (do
      writeIndicator dots true false false
      modE fun s => { s with openEnded := 0 }
      writeIndent)
  opE (.out .flush)
  setStateE .ended

/-- emitter.c:552-685 `yaml_emitter_emit_document_start`. `yaml_emitter_check_empty_document` (1109-1113) is constantly
0. -/
def emitDocumentStart (e : EvData) (first : Bool) : EM Unit :=
  match e with
  | .documentStart version tags implicit => emitDocumentStartEvent version tags implicit first
  | .streamEnd => emitStreamEndEvent
  | _ => failE "expected DOCUMENT-START or STREAM-END"

/-- emitter.c:691-699 `yaml_emitter_emit_document_content` -/
def emitDocumentContent (e : EvData) : EM Unit := do
  pushStateE .documentEnd
  emitNode e true false false false

/-- emitter.c:705-739 `yaml_emitter_emit_document_end` -/
def emitDocumentEnd (e : EvData) : EM Unit :=
  match e with
  | .documentEnd implicit => do
    writeIndent
    (if !implicit then do
        writeIndicator dots true false false
        modE fun s => { s with openEnded := 0 }
        writeIndent
      else modE fun s => { s with openEnded := if s.openEnded == 0 then 1 else s.openEnded })
    opE (.out .flush)
    modE fun s => { s with state := .documentStart, tags := [] }
  | _ => failE "expected DOCUMENT-END"

/-- `emitter->canonical || emitter->column > emitter->best_width` -/
def Emitter.tooWide (s : Emitter) : Bool := s.canonical || s.overWidth

/-- The beginning of a flow collection (emitter.c:750-757, 799-806). -/
def openFlow (c : Nat) : EM Unit := do
  writeIndicator [c] true true false
  increaseIndent true false
  modE fun s => { s with flowLevel := s.flowLevel + 1 }

/-- The end of a flow collection (emitter.c:761-773, 810-822). -/
def closeFlow (c : Nat) (first : Bool) : EM Unit := do
  modE fun s => { s with flowLevel := s.flowLevel - 1 }
  popIndent
  whenE ((← getE).canonical && !first)
    (do writeIndicator [c! ','] false false false; writeIndent)
  writeIndicator [c] false false false
  popStateE

/-- emitter.c:746-789 `yaml_emitter_emit_flow_sequence_item` -/
def emitFlowSequenceItem (e : EvData) (first : Bool) : EM Unit := do
  whenE first (openFlow (c! '['))
  if e = .sequenceEnd then closeFlow (c! ']') first
  else
    whenE (!first) (writeIndicator [c! ','] false false false)
    whenE (← getE).tooWide writeIndent
    pushStateE .flowSequenceItem
    emitNode e false true false false

/-- emitter.c:795-852 `yaml_emitter_emit_flow_mapping_key` -/
def emitFlowMappingKey (e : EvData) (first : Bool) : EM Unit := do
  whenE first (openFlow (c! '{'))
  if e = .mappingEnd then closeFlow (c! '}') first
  else
    whenE (!first) (writeIndicator [c! ','] false false false)
    whenE (← getE).tooWide writeIndent
    if !(← getE).canonical && (← getE).simpleKey then
      pushStateE .flowMappingSimpleValue
      emitNode e false false true true
    else
      writeIndicator [c! '?'] true false false
      pushStateE .flowMappingValue
      emitNode e false false true false

/-- emitter.c:858-877 `yaml_emitter_emit_flow_mapping_value` -/
def emitFlowMappingValue (e : EvData) (simple : Bool) : EM Unit := do
  (if simple then writeIndicator [c! ':'] false false false
    else do
      whenE (← getE).tooWide writeIndent
      writeIndicator [c! ':'] true false false)
  pushStateE .flowMappingKey
  emitNode e false false true false

/-- emitter.c:883-911 `yaml_emitter_emit_block_sequence_item` -/
def emitBlockSequenceItem (e : EvData) (first : Bool) : EM Unit := do
  whenE first (do increaseIndent false ((← getE).mappingContext && !(← getE).indention))
  if e = .sequenceEnd then
    popIndent
    popStateE
  else
    writeIndent
    writeIndicator [c! '-'] true false true
    pushStateE .blockSequenceItem
    emitNode e false true false false

/-- emitter.c:917-956 `yaml_emitter_emit_block_mapping_key` -/
def emitBlockMappingKey (e : EvData) (first : Bool) : EM Unit := do
  whenE first (increaseIndent false false)
  if e = .mappingEnd then
    popIndent
    popStateE
  else
    writeIndent
    if (← getE).simpleKey then
      pushStateE .blockMappingSimpleValue
      emitNode e false false true true
    else
      writeIndicator [c! '?'] true false true
      pushStateE .blockMappingValue
      emitNode e false false true false

/-- emitter.c:962-981 `yaml_emitter_emit_block_mapping_value` -/
def emitBlockMappingValue (e : EvData) (simple : Bool) : EM Unit := do
  (if simple then writeIndicator [c! ':'] false false false
    else do
      writeIndent
      writeIndicator [c! ':'] true false true)
  pushStateE .blockMappingKey
  emitNode e false false true false

/-- emitter.c:424-489 `yaml_emitter_state_machine` -/
def emitterStep (e : EvData) : EM Unit := do
  match (← getE).state with
  | .streamStart => emitStreamStart e
  | .firstDocumentStart => emitDocumentStart e true
  | .documentStart => emitDocumentStart e false
  | .documentContent => emitDocumentContent e
  | .documentEnd => emitDocumentEnd e
  | .flowSequenceFirstItem => emitFlowSequenceItem e true
  | .flowSequenceItem => emitFlowSequenceItem e false
  | .flowMappingFirstKey => emitFlowMappingKey e true
  | .flowMappingKey => emitFlowMappingKey e false
  | .flowMappingSimpleValue => emitFlowMappingValue e true
  | .flowMappingValue => emitFlowMappingValue e false
  | .blockSequenceFirstItem => emitBlockSequenceItem e true
  | .blockSequenceItem => emitBlockSequenceItem e false
  | .blockMappingFirstKey => emitBlockMappingKey e true
  | .blockMappingKey => emitBlockMappingKey e false
  | .blockMappingSimpleValue => emitBlockMappingValue e true
  | .blockMappingValue => emitBlockMappingValue e false
  | .ended => failE "expected nothing after STREAM-END"

/-! ### The event queue -/

/-- emitter.c:338-353: the change of the nesting level. -/
def levelChange : EvData → Int
  | .streamStart _ | .documentStart .. | .sequenceStart .. | .mappingStart .. => 1
  | .streamEnd | .documentEnd _ | .sequenceEnd | .mappingEnd => -1
  | _ => 0

/-- emitter.c:336-357: does the nesting level come back to 0? -/
def levelLoop : List EvData → Int → Bool
  | [], _ => true
  | e :: es, level => if level + levelChange e = 0 then false else levelLoop es (level + levelChange e)

/-- emitter.c:319-331: the number of events to wait for. -/
def accumulate : EvData → Option Nat
  | .documentStart .. => some 1
  | .sequenceStart .. => some 2
  | .mappingStart .. => some 3
  | _ => none

/-- emitter.c:309-358 `yaml_emitter_need_more_events` -/
def needMore (events : List EvData) : Bool :=
  match events with
  | [] => true
  | e :: _ =>
    match accumulate e with
    | none => false
    | some n => if events.length > n then false else levelLoop events 0

/-- emitter.c:288-295: the loop over the queue. `fuel` is the length of the queue. -/
def emitLoop : Nat → EM Unit
  | 0 => pure ()
  | n + 1 => do
    let s ← getE
    if needMore s.events then pure ()
    else
      match s.events with
      | [] => pure ()
      | e :: _ =>
        analyzeEvent e
        emitterStep e
        modE fun s => { s with events := s.events.tail }
        emitLoop n

/-- emitter.c:281-299 `yaml_emitter_emit` -/
def emit (e : EvData) : EM Unit := do
  opE .alloc
  modE fun s => { s with events := s.events ++ [e] }
  emitLoop (← getE).events.length

/-- Successive calls of `yaml_emitter_emit`, up to the first that fails. -/
def emitAll : List EvData → EM Unit
  | [] => pure ()
  | e :: es => do
    emit e
    emitAll es

end LibYaml
