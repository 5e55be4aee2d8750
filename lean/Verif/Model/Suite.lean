import Verif.Model.Types
import Verif.Spec.Unicode

/-!
# The programs for the YAML test suite

tests/run-parser-test-suite.c prints the events of a parser, one on a line; tests/run-emitter-test-suite.c reads such lines and hands
the events to an emitter. Modelled are the printing of an event, and the reading up to the arguments of the event constructors (api.c:619-906, in
`Model/EventApi.lean`). Left out are the options, the loops around the parser and the emitter (those of `Model/Reformat.lean`), reports on `stderr`,
errors of `stdin` and `stdout`, and scalars of more than `INT_MAX` bytes (`int i` in `print_escaped`).

A line is a list of bytes without the NUL at its end.
-/

namespace LibYaml

/-- A character of the program text. -/
def ch (c : Char) : UInt8 := UInt8.ofNat c.toNat

/-- A string of the program text. -/
def asc (s : List Char) : List UInt8 := s.map ch

/-- The option `--flow` of both programs: `off` (-1, the default), `keep` (0), `on` (1). -/
inductive FlowOpt | off | keep | on
  deriving DecidableEq, Repr

/-! ### Printing -/

/-- What `printf("%s", s)` prints: up to the first NUL. -/
def cstrB (b : List UInt8) : List UInt8 := b.takeWhile (· != 0)

/-- run-parser-test-suite.c:175-189: one byte of a value. -/
def printByte (c : UInt8) : List UInt8 :=
  if c = ch '\\' then asc ['\\', '\\']
  else if c = 0 then asc ['\\', '0']
  else if c = 8 then asc ['\\', 'b']
  else if c = 10 then asc ['\\', 'n']
  else if c = 13 then asc ['\\', 'r']
  else if c = 9 then asc ['\\', 't']
  else [c]

/-- run-parser-test-suite.c:169-191 `print_escaped` -/
def printEscaped (b : List UInt8) : List UInt8 := b.flatMap printByte

/-- run-parser-test-suite.c:101-104, 115-118, 125-128 -/
def printProps (anchor tag : Option Text) : List UInt8 :=
  (match anchor with
    | some a => asc [' ', '&'] ++ cstrB (Spec.utf8s a)
    | none => []) ++
  (match tag with
    | some t => asc [' ', '<'] ++ cstrB (Spec.utf8s t) ++ asc ['>']
    | none => [])

/-- run-parser-test-suite.c:97-100, 111-114: are the brackets of a collection printed? -/
def printFlow (f : FlowOpt) (style : CollStyle) : Bool :=
  match f with
  | .off => false
  | .keep => style = .flow
  | .on => true

/-- run-parser-test-suite.c:129-147; `none` is `abort()`. -/
def styleChar : ScalarStyle → Option UInt8
  | .plain => some (ch ':')
  | .single => some (ch '\'')
  | .double => some (ch '"')
  | .literal => some (ch '|')
  | .folded => some (ch '>')
  | .any => none

/-- run-parser-test-suite.c:77-154: the line of an event, without the line break; `none` is `abort()`. -/
def printEvent (f : FlowOpt) : EvData → Option (List UInt8)
  | .streamStart _ => some (asc ['+', 'S', 'T', 'R'])
  | .streamEnd => some (asc ['-', 'S', 'T', 'R'])
  | .documentStart _ _ implicit => some (asc ['+', 'D', 'O', 'C'] ++ if implicit then [] else asc [' ', '-', '-', '-'])
  | .documentEnd implicit => some (asc ['-', 'D', 'O', 'C'] ++ if implicit then [] else asc [' ', '.', '.', '.'])
  | .mappingStart a t _ style =>
    some (asc ['+', 'M', 'A', 'P'] ++ ((if printFlow f style then asc [' ', '{', '}'] else []) ++ printProps a t))
  | .mappingEnd => some (asc ['-', 'M', 'A', 'P'])
  | .sequenceStart a t _ style =>
    some (asc ['+', 'S', 'E', 'Q'] ++ ((if printFlow f style then asc [' ', '[', ']'] else []) ++ printProps a t))
  | .sequenceEnd => some (asc ['-', 'S', 'E', 'Q'])
  | .scalar a t v _ _ style =>
    match styleChar style with
    | none => none
    | some c => some (asc ['=', 'V', 'A', 'L'] ++ (printProps a t ++ ch ' ' :: c :: printEscaped (Spec.utf8s v)))
  | .alias a => some (asc ['=', 'A', 'L', 'I'] ++ (asc [' ', '*'] ++ cstrB (Spec.utf8s a)))

/-- run-parser-test-suite.c:61-160: the lines of the events printed so far; `none` is `abort()`. -/
def printEvents (f : FlowOpt) : List EvData → Option (List UInt8)
  | [] => some []
  | e :: es =>
    match printEvent f e, printEvents f es with
    | some l, some r => some (l ++ 10 :: r)
    | _, _ => none

/-! ### Reading -/

/-- How the reading of a line fails: `abort()`, the report of an unknown event, undefined behaviour. -/
inductive SuiteFail | aborted | unknown | ub
  deriving DecidableEq, Repr

/-- The arguments of the event constructor called for a line. Strings are given up to their NUL. -/
inductive SuiteCall
  | streamStart
  | streamEnd
  | documentStart (implicit : Bool)
  | documentEnd (implicit : Bool)
  | mappingStart (anchor tag : Option (List UInt8)) (style : CollStyle)
  | mappingEnd
  | sequenceStart (anchor tag : Option (List UInt8)) (style : CollStyle)
  | sequenceEnd
  | scalar (anchor tag : Option (List UInt8)) (value : List UInt8) (implicit : Bool) (style : ScalarStyle)
  | alias (anchor : Option (List UInt8))
  deriving DecidableEq, Repr

/-- `fgets` with room for `n` bytes before the NUL: what is read, with the line break, and what is left. -/
def fgetsN : Nat → List UInt8 → List UInt8 × List UInt8
  | 0, i => ([], i)
  | _ + 1, [] => ([], [])
  | n + 1, c :: i => if c = 10 then ([c], i) else (c :: (fgetsN n i).1, (fgetsN n i).2)

/-- run-emitter-test-suite.c:190-204 `get_line`: the line and the input left; `none` at the end of the input. -/
def suiteLine (input : List UInt8) : Except SuiteFail (Option (List UInt8 × List UInt8)) :=
  if input = [] then .ok none
  else
    let s := cstrB (fgetsN 1022 input).1
    if (10 : UInt8) ∈ s then .ok (some (s.takeWhile (· != 10), (fgetsN 1022 input).2)) else .error .aborted

/-- run-emitter-test-suite.c:206-218 `get_anchor`; the buffer has 256 bytes (85). -/
def suiteAnchor (sigil : UInt8) (line : List UInt8) : Except SuiteFail (Option (List UInt8)) :=
  match line.dropWhile (· != sigil) with
  | [] => .ok none
  | _ :: r =>
    let a := r.takeWhile (· != ch ' ')
    if a.length < 256 then .ok (some a) else .error .ub

/-- run-emitter-test-suite.c:220-231 `get_tag`; the buffer has 256 bytes (86). If the `>` comes before the `<`, the number
of bytes to be copied is negative. -/
def suiteTag (line : List UInt8) : Except SuiteFail (Option (List UInt8)) :=
  if ch '<' ∈ line then
    if ch '>' ∈ line then
      let s := (line.takeWhile (· != ch '<')).length
      let e := (line.takeWhile (· != ch '>')).length
      if e < s + 1 then .error .ub
      else if e - s - 1 < 256 then .ok (some ((line.drop (s + 1)).take (e - s - 1)))
      else .error .ub
    else .ok none
  else .ok none

/-- run-emitter-test-suite.c:243-252 -/
def suiteStyle (c : UInt8) : Option ScalarStyle :=
  if c = ch ':' then some .plain
  else if c = ch '\'' then some .single
  else if c = ch '"' then some .double
  else if c = ch '|' then some .literal
  else if c = ch '>' then some .folded
  else none

/-- run-emitter-test-suite.c:240-260: the style, and the rest of the line after it. -/
def findStyle : List UInt8 → Option (ScalarStyle × List UInt8)
  | [] => none
  | c :: r =>
    if c = ch ' ' then
      match r.head?.bind suiteStyle with
      | some s => some (s, r.tail)
      | none => findStyle r
    else findStyle r

/-- run-emitter-test-suite.c:266-279 -/
def unescapeByte (c : UInt8) : Option UInt8 :=
  if c = ch '\\' then some (ch '\\')
  else if c = ch '0' then some 0
  else if c = ch 'b' then some 8
  else if c = ch 'n' then some 10
  else if c = ch 'r' then some 13
  else if c = ch 't' then some 9
  else none

/-- `value[i++] = c`; the buffer has 1024 bytes (131). -/
def putByte (acc : List UInt8) (c : UInt8) : Except SuiteFail (List UInt8) :=
  if acc.length < 1024 then .ok (acc ++ [c]) else .error .ub

/-- run-emitter-test-suite.c:264-284. After a backslash at the end of the line the NUL is read. -/
def unescape : List UInt8 → List UInt8 → Except SuiteFail (List UInt8)
  | [], acc => if acc.length < 1024 then .ok acc else .error .ub
  | [c], acc =>
    if c = ch '\\' then .error .aborted
    else do
      let acc ← putByte acc c
      unescape [] acc
  | c :: d :: r, acc =>
    if c = ch '\\' then
      match unescapeByte d with
      | none => .error .aborted
      | some b => do
        let acc ← putByte acc b
        unescape r acc
    else do
      let acc ← putByte acc c
      unescape (d :: r) acc

/-- run-emitter-test-suite.c:233-285 `get_value` -/
def suiteValue (line : List UInt8) : Except SuiteFail (List UInt8 × ScalarStyle) :=
  match findStyle (line.drop 4) with
  | none => .error .aborted
  | some (s, r) => do
    let v ← unescape r []
    return (v, s)

/-- The kinds of lines. -/
inductive LineKind
  | streamStart | streamEnd | documentStart | documentEnd | mappingStart | mappingEnd | sequenceStart | sequenceEnd | scalar | alias
  deriving DecidableEq, Repr

/-- run-emitter-test-suite.c:90-149: the comparisons of the first four bytes. -/
def lineKind (line : List UInt8) : Option LineKind :=
  if line.take 4 = asc ['+', 'S', 'T', 'R'] then some .streamStart
  else if line.take 4 = asc ['-', 'S', 'T', 'R'] then some .streamEnd
  else if line.take 4 = asc ['+', 'D', 'O', 'C'] then some .documentStart
  else if line.take 4 = asc ['-', 'D', 'O', 'C'] then some .documentEnd
  else if line.take 4 = asc ['+', 'M', 'A', 'P'] then some .mappingStart
  else if line.take 4 = asc ['-', 'M', 'A', 'P'] then some .mappingEnd
  else if line.take 4 = asc ['+', 'S', 'E', 'Q'] then some .sequenceStart
  else if line.take 4 = asc ['-', 'S', 'E', 'Q'] then some .sequenceEnd
  else if line.take 4 = asc ['=', 'V', 'A', 'L'] then some .scalar
  else if line.take 4 = asc ['=', 'A', 'L', 'I'] then some .alias
  else none

/-- run-emitter-test-suite.c:105-109, 118-122: the style of a collection. `line + 5` is within the buffer: after a line of four bytes
it holds the NUL that `fgets` wrote. (118-120 takes the flow style of mappings for sequences; the numbers are equal.) -/
def readFlow (f : FlowOpt) (brackets line : List UInt8) : CollStyle :=
  match f with
  | .off => .block
  | .keep => if (line.drop 5).take 2 = brackets then .flow else .block
  | .on => .flow

/-- run-emitter-test-suite.c:90-149: the constructor called for a line. The value of a scalar is handed over with length -1, so that it
ends at the first NUL (138). -/
def suiteCall (f : FlowOpt) (line : List UInt8) : Except SuiteFail SuiteCall :=
  match lineKind line with
  | none => .error .unknown
  | some .streamStart => .ok .streamStart
  | some .streamEnd => .ok .streamEnd
  | some .documentStart => .ok (.documentStart ((line.drop 4).take 4 ≠ asc [' ', '-', '-', '-']))
  | some .documentEnd => .ok (.documentEnd ((line.drop 4).take 4 ≠ asc [' ', '.', '.', '.']))
  | some .mappingStart => do
    let a ← suiteAnchor (ch '&') line
    let t ← suiteTag line
    return .mappingStart a t (readFlow f (asc ['{', '}']) line)
  | some .mappingEnd => .ok .mappingEnd
  | some .sequenceStart => do
    let a ← suiteAnchor (ch '&') line
    let t ← suiteTag line
    return .sequenceStart a t (readFlow f (asc ['[', ']']) line)
  | some .sequenceEnd => .ok .sequenceEnd
  | some .scalar => do
    let (v, s) ← suiteValue line
    let t ← suiteTag line
    let a ← suiteAnchor (ch '&') line
    return .scalar a t (cstrB v) t.isNone s
  | some .alias => do
    let a ← suiteAnchor (ch '*') line
    return .alias a

/-- run-emitter-test-suite.c:83-155: at most `n` rounds of the loop, as long as constructors and emitter do not fail: the calls made, and whether
the input ended (`none`), or how the reading failed. -/
def suiteRead (f : FlowOpt) : Nat → List UInt8 → List SuiteCall × Option SuiteFail
  | 0, _ => ([], none)
  | n + 1, input =>
    match suiteLine input with
    | .error e => ([], some e)
    | .ok none => ([], none)
    | .ok (some (line, rest)) =>
      match suiteCall f line with
      | .error e => ([], some e)
      | .ok c => (c :: (suiteRead f n rest).1, (suiteRead f n rest).2)

end LibYaml
