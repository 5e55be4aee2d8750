import Verif.Model.Lexer
import Verif.Model.Parser

/-!
# Model of the token-level part of the scanner (`src/scanner.c:735-1910`)

Simplifications: allocation succeeds; `parser->encoding` is a parameter (`enc`) fixed from the start, because the
STREAM-START token is produced after the first `CACHE`, which determines it. The pointers into the queue and the stacks
are lists: the queue has its head first, the stacks their top first. Inserting outside the queue, popping an empty
stack and using the top of an empty stack are `ub`.
-/

namespace LibYaml

/-- yaml.h:1000-1015 `yaml_simple_key_t` -/
structure SimpleKey where
  possible : Bool := false
  required : Bool := false
  tokenNumber : Nat := 0
  mark : Mark := {}
  deriving DecidableEq, Repr

/-- The fields of `yaml_parser_t` used by the scanner (yaml.h:1087-1309). -/
structure Scanner where
  enc : Spec.Enc := .utf8
  mark : Mark := {}
  startProduced : Bool := false
  flowLevel : Nat := 0
  tokens : List Token := []
  tokensParsed : Nat := 0
  indents : List Int := []
  indent : Int := 0
  allowed : Bool := false
  keys : List SimpleKey := []
  deriving DecidableEq, Repr

/-- Scanner actions. -/
abbrev SM := StateT Scanner Prog

/-- Run a lexical function. -/
def lex {α : Type} (x : Lex α) : SM α := fun s =>
  (x s.mark).bind fun (a, m) => .ret (a, { s with mark := m })

/-- An action that does not touch the input. -/
def act (g : Scanner → Except Fail Scanner) : SM Unit := fun s =>
  match g s with
  | .ok s => .ret ((), s)
  | .error e => .fail e

/-- `INT_MAX` -/
def maxInt : Nat := 2147483647

/-- `ENQUEUE(parser, parser->tokens, token)` -/
def Scanner.enqueue (t : Token) (s : Scanner) : Except Fail Scanner := .ok { s with tokens := s.tokens ++ [t] }

/-- `QUEUE_INSERT(parser, parser->tokens, number - parser->tokens_parsed, token)` -/
def Scanner.insert (number : Nat) (t : Token) (s : Scanner) : Except Fail Scanner :=
  if number < s.tokensParsed ∨ s.tokens.length < number - s.tokensParsed then .error .ub
  else .ok { s with tokens := s.tokens.take (number - s.tokensParsed) ++ t :: s.tokens.drop (number - s.tokensParsed) }

/-- `parser->simple_key_allowed = b` -/
def Scanner.allow (b : Bool) (s : Scanner) : Except Fail Scanner := .ok { s with allowed := b }

/-- scanner.c:1069-1078: must this key be dropped at the mark `m`? -/
def SimpleKey.stale (m : Mark) (k : SimpleKey) : Bool :=
  k.possible && (decide (k.mark.line < m.line) || decide (k.mark.index + 1024 < m.index))

/-- `"while scanning a simple key"` (scanner.c:1082-1086) -/
def keyError (k : SimpleKey) (m : Mark) : Fail :=
  .scanner (some "while scanning a simple key") k.mark "could not find expected ':'" m

/-- The loop of `yaml_parser_stale_simple_keys`, from the bottom of the stack to its top. -/
def staleKeys (m : Mark) : List SimpleKey → Except Fail (List SimpleKey)
  | [] => .ok []
  | k :: ks =>
    match staleKeys m ks with
    | .error e => .error e
    | .ok ks =>
      if k.stale m then
        if k.required then .error (keyError k m) else .ok ({ k with possible := false } :: ks)
      else .ok (k :: ks)

/-- scanner.c:1056-1091 `yaml_parser_stale_simple_keys` -/
def Scanner.stale (s : Scanner) : Except Fail Scanner :=
  match staleKeys s.mark s.keys with
  | .error e => .error e
  | .ok ks => .ok { s with keys := ks }

/-- scanner.c:1134-1155 `yaml_parser_remove_simple_key` -/
def Scanner.removeKey (s : Scanner) : Except Fail Scanner :=
  match s.keys with
  | [] => .error .ub
  | k :: ks =>
    if k.possible && k.required then .error (keyError k s.mark)
    else .ok { s with keys := { k with possible := false } :: ks }

/-- scanner.c:1097-1128 `yaml_parser_save_simple_key` -/
def Scanner.saveKey (s : Scanner) : Except Fail Scanner :=
  if s.allowed then
    match s.removeKey with
    | .error e => .error e
    | .ok s =>
      match s.keys with
      | [] => .error .ub
      | _ :: ks =>
        .ok { s with keys :=
          { possible := true, required := s.flowLevel == 0 && s.indent == s.mark.column,
            tokenNumber := s.tokensParsed + s.tokens.length, mark := s.mark } :: ks }
  else .ok s

/-- scanner.c:1161-1181 `yaml_parser_increase_flow_level` -/
def Scanner.increaseFlow (s : Scanner) : Except Fail Scanner :=
  if s.flowLevel = maxInt then .error .memory
  else .ok { s with keys := {} :: s.keys, flowLevel := s.flowLevel + 1 }

/-- scanner.c:1187-1196 `yaml_parser_decrease_flow_level` -/
def Scanner.decreaseFlow (s : Scanner) : Except Fail Scanner :=
  match s.flowLevel with
  | 0 => .ok s
  | l + 1 =>
    match s.keys with
    | [] => .error .ub
    | _ :: ks => .ok { s with keys := ks, flowLevel := l }

/-- scanner.c:1205-1250 `yaml_parser_roll_indent`; `number = none` is `-1`. -/
def Scanner.rollIndent (column : Nat) (number : Option Nat) (data : TokData) (mark : Mark) (s : Scanner) :
    Except Fail Scanner :=
  if s.flowLevel ≠ 0 then .ok s
  else if s.indent < column then
    if column > maxInt then .error .memory
    else
      let s := { s with indents := s.indent :: s.indents, indent := column }
      let t : Token := { data := data, start := mark, stop := mark }
      match number with
      | none => s.enqueue t
      | some n => s.insert n t
  else .ok s

/-- The loop of `yaml_parser_unroll_indent`. -/
def unrollLoop (column : Int) (mark : Mark) : Int → List Int → List Token → Except Fail (Int × List Int × List Token)
  | indent, [], q => if indent > column then .error .ub else .ok (indent, [], q)
  | indent, i :: is, q =>
    if indent > column then
      unrollLoop column mark i is (q ++ [{ data := .blockEnd, start := mark, stop := mark }])
    else .ok (indent, i :: is, q)

/-- scanner.c:1258-1285 `yaml_parser_unroll_indent` -/
def Scanner.unrollIndent (column : Int) (s : Scanner) : Except Fail Scanner :=
  if s.flowLevel ≠ 0 then .ok s
  else
    match unrollLoop column s.mark s.indent s.indents s.tokens with
    | .error e => .error e
    | .ok (indent, indents, tokens) => .ok { s with indent := indent, indents := indents, tokens := tokens }

/-! ### The fetchers -/

/-- scanner.c:1291-1323 `yaml_parser_fetch_stream_start` -/
def fetchStreamStart : SM Unit := act fun s =>
  .ok { s with
    indent := -1, keys := {} :: s.keys, allowed := true, startProduced := true
    tokens := s.tokens ++ [{ data := .streamStart s.enc, start := s.mark, stop := s.mark }] }

/-- scanner.c:1336-1341: force a new line. -/
def forceLine (m : Mark) : Mark := if m.column = 0 then m else { m with column := 0, line := m.line + 1 }

/-- Reset the indentation level and the simple keys (scanner.c:1343-1353, 1371-1381, 1409-1419). -/
def resetAll : SM Unit := do
  act (Scanner.unrollIndent (-1))
  act Scanner.removeKey
  act (Scanner.allow false)

/-- scanner.c:1329-1361 `yaml_parser_fetch_stream_end` -/
def fetchStreamEnd : SM Unit := do
  act fun s => .ok { s with mark := forceLine s.mark }
  resetAll
  act fun s => s.enqueue { data := .streamEnd, start := s.mark, stop := s.mark }

/-- scanner.c:1367-1397 `yaml_parser_fetch_directive` -/
def fetchDirective (f : Nat) : SM Unit := do
  resetAll
  let t ← lex (scanDirective f)
  act (Scanner.enqueue t)

/-- Consume `n` characters and append a token of the given kind (e.g. scanner.c:1421-1438). -/
def fetchIndicator (n : Nat) (data : TokData) : SM Unit := do
  let start := (← get).mark
  lex (skipN n)
  let stop := (← get).mark
  act (Scanner.enqueue { data := data, start := start, stop := stop })

/-- scanner.c:1403-1442 `yaml_parser_fetch_document_indicator` -/
def fetchDocumentIndicator (data : TokData) : SM Unit := do
  resetAll
  fetchIndicator 3 data

/-- scanner.c:1448-1485 `yaml_parser_fetch_flow_collection_start` -/
def fetchFlowStart (data : TokData) : SM Unit := do
  act Scanner.saveKey
  act Scanner.increaseFlow
  act (Scanner.allow true)
  fetchIndicator 1 data

/-- scanner.c:1491-1528 `yaml_parser_fetch_flow_collection_end` -/
def fetchFlowEnd (data : TokData) : SM Unit := do
  act Scanner.removeKey
  act Scanner.decreaseFlow
  act (Scanner.allow false)
  fetchIndicator 1 data

/-- scanner.c:1534-1563 `yaml_parser_fetch_flow_entry` -/
def fetchFlowEntry : SM Unit := do
  act Scanner.removeKey
  act (Scanner.allow true)
  fetchIndicator 1 .flowEntry

/-- scanner.c:1576-1592, 1636-1652, 1729-1745: in the block context, start a collection at the current column unless
that is not allowed. -/
def startBlock (data : TokData) (problem : String) (s : Scanner) : Except Fail Scanner :=
  if s.flowLevel = 0 then
    if s.allowed then s.rollIndent s.mark.column none data s.mark
    else .error (.scanner none s.mark problem s.mark)
  else .ok s

/-- scanner.c:1569-1624 `yaml_parser_fetch_block_entry` -/
def fetchBlockEntry : SM Unit := do
  act (startBlock .blockSequenceStart "block sequence entries are not allowed in this context")
  act Scanner.removeKey
  act (Scanner.allow true)
  fetchIndicator 1 .blockEntry

/-- scanner.c:1630-1677 `yaml_parser_fetch_key` -/
def fetchKey : SM Unit := do
  act (startBlock .blockMappingStart "mapping keys are not allowed in this context")
  act Scanner.removeKey
  act fun s => s.allow (s.flowLevel == 0)
  fetchIndicator 1 .key

/-- scanner.c:1697-1722: the pending key `k` becomes a KEY token, preceded by BLOCK-MAPPING-START if needed. -/
def Scanner.insertKey (k : SimpleKey) (s : Scanner) : Except Fail Scanner :=
  match s.insert k.tokenNumber { data := .key, start := k.mark, stop := k.mark } with
  | .error e => .error e
  | .ok s =>
    match s.rollIndent k.mark.column (some k.tokenNumber) .blockMappingStart k.mark with
    | .error e => .error e
    | .ok s => .ok { s with keys := { k with possible := false } :: s.keys.tail, allowed := false }

/-- scanner.c:1690-1748: the key of the value that starts here. -/
def valueKey (s : Scanner) : Except Fail Scanner :=
  match s.keys with
  | [] => .error .ub
  | k :: _ =>
    if k.possible then s.insertKey k
    else
      match startBlock .blockMappingStart "mapping values are not allowed in this context" s with
      | .error e => .error e
      | .ok s => s.allow (s.flowLevel == 0)

/-- scanner.c:1683-1759 `yaml_parser_fetch_value` -/
def fetchValue : SM Unit := do
  act valueKey
  fetchIndicator 1 .value

/-- scanner.c:1765-1789 `yaml_parser_fetch_anchor` -/
def fetchAnchor (f : Nat) (anchor : Bool) : SM Unit := do
  act Scanner.saveKey
  act (Scanner.allow false)
  let t ← lex (scanAnchor f anchor)
  act (Scanner.enqueue t)

/-- scanner.c:1795-1820 `yaml_parser_fetch_tag` -/
def fetchTag (f : Nat) : SM Unit := do
  act Scanner.saveKey
  act (Scanner.allow false)
  let t ← lex (scanTag f ((← get).flowLevel != 0))
  act (Scanner.enqueue t)

/-- scanner.c:1826-1851 `yaml_parser_fetch_block_scalar` -/
def fetchBlockScalar (f : Nat) (literal : Bool) : SM Unit := do
  act Scanner.removeKey
  act (Scanner.allow true)
  let t ← lex (scanBlockScalar f (← get).indent literal)
  act (Scanner.enqueue t)

/-- scanner.c:1857-1882 `yaml_parser_fetch_flow_scalar` -/
def fetchFlowScalar (f : Nat) (single : Bool) : SM Unit := do
  act Scanner.saveKey
  act (Scanner.allow false)
  let t ← lex (scanFlowScalar f single)
  act (Scanner.enqueue t)

/-- scanner.c:1888-1913 `yaml_parser_fetch_plain_scalar` (and 3580-3583: the change of `simple_key_allowed`). -/
def fetchPlainScalar (f : Nat) : SM Unit := do
  act Scanner.saveKey
  act (Scanner.allow false)
  let s ← get
  let (t, blanks) ← lex (scanPlainScalar f s.indent (s.flowLevel != 0))
  act fun s => s.allow (blanks || s.allowed)
  act (Scanner.enqueue t)

/-- scanner.c:1017-1030: characters that do not start a plain scalar by themselves. -/
def isIndicator (c : Nat) : Bool :=
  isBlankz c || c == c! '-' || c == c! '?' || c == c! ':' || c == c! ',' || c == c! '[' || c == c! ']' || c == c! '{'
    || c == c! '}' || c == c! '#' || c == c! '&' || c == c! '*' || c == c! '!' || c == c! '|' || c == c! '>'
    || c == c! '\'' || c == c! '"' || c == c! '%' || c == c! '@' || c == c! '`'

/-- What the next token is. -/
inductive Kind
  | streamEnd | directive | documentStart | documentEnd
  | flowStart (data : TokData) | flowEnd (data : TokData) | flowEntry
  | blockEntry | key | value | anchor (isAnchor : Bool) | tag | block (literal : Bool) | quoted (single : Bool) | plain
  | unknown
  deriving DecidableEq, Repr

/-- scanner.c:924-1043: the cases of `yaml_parser_fetch_next_token` that do not depend on the column; `c` is the current
character. -/
def dispatchChar (flow : Bool) (c : Nat) : Lex Kind :=
  if c = c! '[' then pure (.flowStart .flowSequenceStart)
  else if c = c! '{' then pure (.flowStart .flowMappingStart)
  else if c = c! ']' then pure (.flowEnd .flowSequenceEnd)
  else if c = c! '}' then pure (.flowEnd .flowMappingEnd)
  else if c = c! ',' then pure .flowEntry
  else if c = c! '-' then do
    return if isBlankz (← peekC 1) then .blockEntry else .plain
  else if c = c! '?' then do
    if flow then return .key else return if isBlankz (← peekC 1) then .key else .plain
  else if c = c! ':' then do
    if flow then return .value else return if isBlankz (← peekC 1) then .value else .plain
  else if c = c! '*' then pure (.anchor false)
  else if c = c! '&' then pure (.anchor true)
  else if c = c! '!' then pure .tag
  else if c = c! '|' ∧ flow = false then pure (.block true)
  else if c = c! '>' ∧ flow = false then pure (.block false)
  else if c = c! '\'' then pure (.quoted true)
  else if c = c! '"' then pure (.quoted false)
  else pure (if isIndicator c then .unknown else .plain)

/-- scanner.c:892-1043: the case analysis of `yaml_parser_fetch_next_token`. -/
def dispatch (flow : Bool) : Lex Kind := do
  let c ← peekC 0
  let m ← get
  if isZ c then return .streamEnd
  else if m.column = 0 ∧ c = c! '%' then return .directive
  else if ← docMark (c! '-') then return .documentStart
  else if ← docMark (c! '.') then return .documentEnd
  else dispatchChar flow c

/-- Produce the token(s) of a given kind. -/
def fetchKind (f : Nat) : Kind → SM Unit
  | .streamEnd => fetchStreamEnd
  | .directive => fetchDirective f
  | .documentStart => fetchDocumentIndicator .documentStart
  | .documentEnd => fetchDocumentIndicator .documentEnd
  | .flowStart d => fetchFlowStart d
  | .flowEnd d => fetchFlowEnd d
  | .flowEntry => fetchFlowEntry
  | .blockEntry => fetchBlockEntry
  | .key => fetchKey
  | .value => fetchValue
  | .anchor a => fetchAnchor f a
  | .tag => fetchTag f
  | .block l => fetchBlockScalar f l
  | .quoted s => fetchFlowScalar f s
  | .plain => fetchPlainScalar f
  | .unknown => fun s =>
    .fail (.scanner (some "while scanning for the next token") s.mark "found character that cannot start any token" s.mark)

/-- scanner.c:860-1049 `yaml_parser_fetch_next_token` -/
def fetchNext (f : Nat) : SM Unit := do
  lex (cacheC 1)
  let s ← get
  if s.startProduced then
    let allowed ← lex (scanToNext (s.flowLevel != 0) f f s.allowed)
    act (Scanner.allow allowed)
    act Scanner.stale
    act fun s => s.unrollIndent s.mark.column
    lex (cacheC 4)
    let kind ← lex (dispatch (s.flowLevel != 0))
    fetchKind f kind
  else fetchStreamStart

/-- scanner.c:832-838: does a possible simple key occupy the head of the queue? -/
def Scanner.headPending (s : Scanner) : Bool := s.keys.any fun k => k.possible && k.tokenNumber == s.tokensParsed

/-- scanner.c:800-853 `yaml_parser_fetch_more_tokens` -/
def fetchMore (f : Nat) : Nat → SM Unit
  | 0 => fun _ => .fail .fuel
  | n + 1 => do
    if (← get).tokens.isEmpty then
      fetchNext f
      fetchMore f n
    else
      act Scanner.stale
      if (← get).headPending then
        fetchNext f
        fetchMore f n
      else pure ()

/-- `yaml_parser_fetch_more_tokens` and `DEQUEUE` (scanner.c:759-768; parser.c:48-61). -/
def nextToken (f : Nat) : SM Token := do
  fetchMore f f
  fun s =>
    match s.tokens with
    | [] => .fail .ub
    | t :: ts => .ret (t, { s with tokens := ts, tokensParsed := s.tokensParsed + 1 })

/-! ### Calls of `yaml_parser_scan` -/

/-- The parser object as seen by `yaml_parser_scan`: scanner and input, `stream_end_produced`, and the error. After an
error the rest of the state is not used any more. -/
structure ScanSt (ι : Type) where
  scanner : Scanner
  input : ι
  ended : Bool := false
  error : Option Fail := none

/-- What a call of `yaml_parser_scan` returns: 0, 1 with a zeroed token, or 1 with a token. -/
inductive ScanOut
  | failed
  | nothing
  | token (t : Token)
  deriving DecidableEq, Repr

/-- scanner.c:742-776 `yaml_parser_scan`, given how programs are run. -/
def scanCall {ι : Type} (run : SM Token → Scanner → ι → Except Fail ((Token × Scanner) × ι)) (f : Nat) (st : ScanSt ι) :
    ScanOut × ScanSt ι :=
  if st.ended || st.error.isSome then (.nothing, st)
  else
    match run (nextToken f) st.scanner st.input with
    | .error e => (.failed, { st with error := some e })
    | .ok ((t, s), i) => (.token t, { st with scanner := s, input := i, ended := t.data == .streamEnd })

/-- Programs over a list of characters. -/
def onList {α : Type} (p : SM α) (s : Scanner) (i : In) : Except Fail ((α × Scanner) × In) := (p s).run i

/-- Programs over the reader. -/
def onReader {α : Type} (o : Oracle) (p : SM α) (s : Scanner) (st : RS) : Except Fail ((α × Scanner) × RS) := (p s).runR o st

/-- A parser after `yaml_parser_initialize` (api.c:176-213), `yaml_parser_set_input` and possibly
`yaml_parser_set_encoding`. The encoding named by STREAM-START is the one the reader will use (C05). -/
def scanStart (enc : Option Spec.Enc) (bytes : List UInt8) : ScanSt RS :=
  { scanner := { enc := (Spec.chosen enc bytes).1 }, input := RS.init bytes enc }

/-- `k` calls of `yaml_parser_scan`: what they return, and the state afterwards. -/
def scanRun (o : Oracle) (f : Nat) (st : ScanSt RS) : Nat → List ScanOut × ScanSt RS
  | 0 => ([], st)
  | k + 1 =>
    let r := scanRun o f st k
    let c := scanCall (onReader o) f r.2
    (r.1 ++ [c.1], c.2)

/-- The scanner as a source of tokens for the parser. -/
def scannerSrc (o : Oracle) (f : Nat) : TokSrc (Scanner × RS) where
  next := fun (s, st) =>
    match onReader o (nextToken f) s st with
    | .error e => .error e
    | .ok ((t, s), st) => .ok (t, (s, st))
  depth := fun (s, _) => s.indents.length + s.flowLevel

/-- The same over a list of characters. -/
def textSrc (f : Nat) : TokSrc (Scanner × In) where
  next := fun (s, i) =>
    match onList (nextToken f) s i with
    | .error e => .error e
    | .ok ((t, s), i) => .ok (t, (s, i))
  depth := fun (s, _) => s.indents.length + s.flowLevel

end LibYaml
