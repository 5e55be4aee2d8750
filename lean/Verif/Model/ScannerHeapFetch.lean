import Verif.Model.ScannerHeap
import Verif.Model.Scanner

/-!
# The queue of tokens and the stacks of the scanner on the heap (`src/scanner.c:735-1915`)

The state machine of `Model/Scanner.lean` with `parser->tokens`, `parser->indents` and `parser->simple_keys` in the heap, in the order of the C code:
what is pushed or enqueued before a check fails stays. `scanSrc` is the scanner as the parser on the heap (`Model/ParserHeap.lean`) uses it: with it,
`hParserInit` and `hParserDelete` are `yaml_parser_initialize` and `yaml_parser_delete` with the contents of these three blocks. The token that is scanned goes
to the parser, or to the client, who deletes it.
-/

namespace LibYaml

/-! ### Inserting into a queue -/

section
variable {α : Type} [Cell α]

/-- yaml_private.h:489-492: `memmove`, the store and `tail++`. -/
def qShift (v : α) (i : Nat) (q : HQue) (cells : List (Option α)) : HM (Bool × HQue) := do
  if q.head + i ≤ q.tail ∧ q.tail < cells.length then do
    store q.start (Cell.wrap (cells.take (q.head + i) ++ some v :: ((cells.take q.tail).drop (q.head + i) ++ cells.drop (q.tail + 1))))
    return (true, { q with tail := q.tail + 1 })
  else fun _ => .error .ub

/-- yaml_private.h:485-495 `QUEUE_INSERT` with api.c:142-172 `yaml_queue_extend` -/
def qInsert (v : α) (i : Nat) (q : HQue) : HM (Bool × HQue) := do
  let cells ← qCells q
  if q.tail ≠ cells.length then qShift v i q cells
  else do
    let (ok, q, cells) ← qGrow q cells
    if !ok then return (false, q)
    else do
      let (q, cells) := qMove q cells
      qShift v i q cells

end

/-! ### The state -/

/-- The buffers of the reader (as blocks). -/
structure HRest where
  rawBuffer : Ptr := none
  buffer : Ptr := none
  deriving DecidableEq, Repr

/-- The fields of `yaml_parser_t` used by the scanner (yaml.h:1087-1309), as in `Scanner`, and the reader. -/
structure HScan where
  inp : RS
  enc : Spec.Enc := .utf8
  mark : Mark := {}
  startProduced : Bool := false
  flowLevel : Nat := 0
  tokens : HQue := {}
  tokensParsed : Nat := 0
  indents : HStk := {}
  indent : Int := 0
  allowed : Bool := false
  keys : HStk := {}
  rest : HRest := {}

abbrev HF := XM HScan

/-- A function that scans one token, or a part of the scanner without memory. -/
def hlex {α : Type} (m : HL α) : HF α := fun x h =>
  match m { mark := x.mark, inp := x.inp } h with
  | .error e => .error e
  | .ok ((r, s), h) => .ok ((r, { x with mark := s.mark, inp := s.inp }), h)

/-- `if (!ENQUEUE(parser, parser->tokens, token)) return 0;` -/
def fEnqueue (t : HToken) : HF Unit := fun x => do
  let (ok, q) ← qPush t x.tokens
  if ok then return (.ok (), { x with tokens := q }) else return (.error (some .memory), { x with tokens := q })

/-- `if (!ENQUEUE(parser, parser->tokens, token)) { yaml_token_delete(&token); return 0; }` -/
def fEnqueueOwned (t : HToken) : HF Unit := xorFree (fEnqueue t) (tokenDelete t.data)

/-- A token without strings. -/
def plainToken (data : TokData) (start stop : Mark) : HToken := { data := .plain data, start, stop }

/-- `QUEUE_INSERT(parser, parser->tokens, number - parser->tokens_parsed, token)` -/
def fInsert (number : Nat) (t : HToken) : HF Unit := fun x => do
  if number < x.tokensParsed then fun _ => .error .ub
  else do
    let (ok, q) ← qInsert t (number - x.tokensParsed) x.tokens
    if ok then return (.ok (), { x with tokens := q }) else return (.error (some .memory), { x with tokens := q })

/-- `parser->simple_key_allowed = b` -/
def fAllow (b : Bool) : HF Unit := xmod fun x => { x with allowed := b }

/-- `PUSH(parser, parser->simple_keys, key)` -/
def fPushKey (k : SimpleKey) : HF Unit := fun x => do
  let (ok, s) ← hPush k x.keys
  if ok then return (.ok (), { x with keys := s }) else return (.error (some .memory), { x with keys := s })

/-- `PUSH(parser, parser->indents, parser->indent)` -/
def fPushIndent : HF Unit := fun x => do
  let (ok, s) ← hPush x.indent x.indents
  if ok then return (.ok (), { x with indents := s }) else return (.error (some .memory), { x with indents := s })

/-- scanner.c:1063-1088: the loop of `yaml_parser_stale_simple_keys`; `n` keys are left, `i` is the offset of `simple_key`. -/
def fStaleLoop : Nat → Nat → HF Unit
  | 0, _ => pure ()
  | n + 1, i => fun x => do
    let k : SimpleKey ← hGet i x.keys
    if k.stale x.mark then
      if k.required then return (.error (some (keyError k x.mark)), x)
      else do
        hSet i { k with possible := false } x.keys
        fStaleLoop n (i + 1) x
    else fStaleLoop n (i + 1) x

/-- scanner.c:1056-1091 `yaml_parser_stale_simple_keys` -/
def fStale : HF Unit := fun x => fStaleLoop x.keys.top 0 x

/-- `*(parser->simple_keys.top-1)` -/
def fTopKey : HF SimpleKey := fun x => do
  if x.keys.top = 0 then fun _ => .error .ub
  else do
    let k ← hGet (x.keys.top - 1) x.keys
    return (.ok k, x)

/-- `*(parser->simple_keys.top-1) = k` -/
def fSetKey (k : SimpleKey) : HF Unit := fun x => do
  if x.keys.top = 0 then fun _ => .error .ub
  else do
    hSet (x.keys.top - 1) k x.keys
    return (.ok (), x)

/-- scanner.c:1134-1155 `yaml_parser_remove_simple_key` -/
def fRemoveKey : HF Unit := do
  let k ← fTopKey
  let m ← xget HScan.mark
  if k.possible && k.required then xfail (some (keyError k m))
  else fSetKey { k with possible := false }

/-- scanner.c:1097-1128 `yaml_parser_save_simple_key` -/
def fSaveKey : HF Unit := do
  let k ← xget fun x => { possible := true, required := x.flowLevel == 0 && x.indent == x.mark.column,
                          tokenNumber := x.tokensParsed + (x.tokens.tail - x.tokens.head), mark := x.mark : SimpleKey }
  if ← xget HScan.allowed then do
    fRemoveKey
    fSetKey k
  else pure ()

/-- scanner.c:1161-1181 `yaml_parser_increase_flow_level` -/
def fIncreaseFlow : HF Unit := do
  fPushKey {}
  if (← xget HScan.flowLevel) = maxInt then xfail (some .memory)
  else xmod fun x => { x with flowLevel := x.flowLevel + 1 }

/-- scanner.c:1187-1196 `yaml_parser_decrease_flow_level` -/
def fDecreaseFlow : HF Unit := fun x => do
  if x.flowLevel = 0 then return (.ok (), x)
  else do
    let (_, s) ← hPop (α := SimpleKey) x.keys
    return (.ok (), { x with flowLevel := x.flowLevel - 1, keys := s })

/-- scanner.c:1205-1250 `yaml_parser_roll_indent`; `number = none` is `-1`. -/
def fRollIndent (column : Nat) (number : Option Nat) (data : TokData) (mark : Mark) : HF Unit := do
  if (← xget HScan.flowLevel) ≠ 0 then pure ()
  else if (← xget HScan.indent) < column then do
    fPushIndent
    if column > maxInt then xfail (some .memory)
    else do
      xmod fun x => { x with indent := column }
      match number with
      | none => fEnqueue (plainToken data mark mark)
      | some n => fInsert n (plainToken data mark mark)
  else pure ()

/-- `parser->indent = POP(parser, parser->indents)` -/
def fPopIndent : HF Unit := fun x => do
  let (i, s) ← hPop x.indents
  return (.ok (), { x with indent := i, indents := s })

/-- scanner.c:1270-1282: the loop of `yaml_parser_unroll_indent`. Every turn pops an element, so the loop ends, or pops the empty stack. -/
def fUnrollLoop (column : Int) : Nat → HF Unit
  | 0 => xstop .fuel
  | n + 1 => do
    if (← xget HScan.indent) > column then do
      let m ← xget HScan.mark
      fEnqueue (plainToken .blockEnd m m)
      fPopIndent
      fUnrollLoop column n
    else pure ()

/-- scanner.c:1258-1285 `yaml_parser_unroll_indent` -/
def fUnrollIndent (column : Int) : HF Unit := do
  if (← xget HScan.flowLevel) ≠ 0 then pure ()
  else do
    let n ← xget fun x => x.indents.top
    fUnrollLoop column (n + 1)

/-! ### The fetchers -/

/-- scanner.c:1291-1323 `yaml_parser_fetch_stream_start` -/
def fStreamStart : HF Unit := do
  xmod fun x => { x with indent := -1 }
  fPushKey {}
  xmod fun x => { x with allowed := true, startProduced := true }
  let x ← xget fun x => (x.enc, x.mark)
  fEnqueue (plainToken (.streamStart x.1) x.2 x.2)

/-- Reset the indentation level and the simple keys (scanner.c:1343-1353, 1371-1381, 1409-1419). -/
def fResetAll : HF Unit := do
  fUnrollIndent (-1)
  fRemoveKey
  fAllow false

/-- scanner.c:1329-1361 `yaml_parser_fetch_stream_end` -/
def fStreamEnd : HF Unit := do
  xmod fun x => { x with mark := forceLine x.mark }
  fResetAll
  let m ← xget HScan.mark
  fEnqueue (plainToken .streamEnd m m)

section
variable (o : Oracle)

/-- scanner.c:1367-1397 `yaml_parser_fetch_directive` -/
def fDirective (f : Nat) : HF Unit := do
  fResetAll
  let t ← hlex (hDirective o f)
  fEnqueueOwned t

/-- Consume `n` characters and append a token of the given kind (e.g. scanner.c:1421-1438). -/
def fIndicator (n : Nat) (data : TokData) : HF Unit := do
  let start ← xget HScan.mark
  hlex (hin o (skipN n))
  let stop ← xget HScan.mark
  fEnqueue (plainToken data start stop)

/-- scanner.c:1403-1442 `yaml_parser_fetch_document_indicator` -/
def fDocumentIndicator (data : TokData) : HF Unit := do
  fResetAll
  fIndicator o 3 data

/-- scanner.c:1448-1485 `yaml_parser_fetch_flow_collection_start` -/
def fFlowStart (data : TokData) : HF Unit := do
  fSaveKey
  fIncreaseFlow
  fAllow true
  fIndicator o 1 data

/-- scanner.c:1491-1528 `yaml_parser_fetch_flow_collection_end` -/
def fFlowEnd (data : TokData) : HF Unit := do
  fRemoveKey
  fDecreaseFlow
  fAllow false
  fIndicator o 1 data

/-- scanner.c:1534-1563 `yaml_parser_fetch_flow_entry` -/
def fFlowEntry : HF Unit := do
  fRemoveKey
  fAllow true
  fIndicator o 1 .flowEntry

/-- scanner.c:1576-1592, 1636-1652, 1729-1745: in the block context, start a collection at the current column unless that is not allowed. -/
def fStartBlock (data : TokData) (problem : String) : HF Unit := do
  if (← xget HScan.flowLevel) = 0 then do
    let m ← xget HScan.mark
    if ← xget HScan.allowed then fRollIndent m.column none data m
    else xfail (some (.scanner none m problem m))
  else pure ()

/-- scanner.c:1569-1624 `yaml_parser_fetch_block_entry` -/
def fBlockEntry : HF Unit := do
  fStartBlock .blockSequenceStart "block sequence entries are not allowed in this context"
  fRemoveKey
  fAllow true
  fIndicator o 1 .blockEntry

/-- `parser->simple_key_allowed = (!parser->flow_level)` -/
def fAllowBlock : HF Unit := xmod fun x => { x with allowed := x.flowLevel == 0 }

/-- scanner.c:1630-1677 `yaml_parser_fetch_key` -/
def fKey : HF Unit := do
  fStartBlock .blockMappingStart "mapping keys are not allowed in this context"
  fRemoveKey
  fAllowBlock
  fIndicator o 1 .key

/-- scanner.c:1690-1748: the key of the value that starts here. `simple_key` points to the top of the stack all the time. -/
def fValueKey : HF Unit := do
  let k ← fTopKey
  if k.possible then do
    fInsert k.tokenNumber (plainToken .key k.mark k.mark)
    fRollIndent k.mark.column (some k.tokenNumber) .blockMappingStart k.mark
    fSetKey { k with possible := false }
    fAllow false
  else do
    fStartBlock .blockMappingStart "mapping values are not allowed in this context"
    fAllowBlock

/-- scanner.c:1683-1759 `yaml_parser_fetch_value` -/
def fValue : HF Unit := do
  fValueKey
  fIndicator o 1 .value

/-- scanner.c:1765-1789 `yaml_parser_fetch_anchor` -/
def fAnchor (f : Nat) (anchor : Bool) : HF Unit := do
  fSaveKey
  fAllow false
  let t ← hlex (hAnchorToken o f anchor)
  fEnqueueOwned t

/-- scanner.c:1795-1820 `yaml_parser_fetch_tag` -/
def fTag (f : Nat) : HF Unit := do
  fSaveKey
  fAllow false
  let level ← xget HScan.flowLevel
  let t ← hlex (hTagToken o f (level != 0))
  fEnqueueOwned t

/-- scanner.c:1826-1851 `yaml_parser_fetch_block_scalar` -/
def fBlockScalar (f : Nat) (literal : Bool) : HF Unit := do
  fRemoveKey
  fAllow true
  let indent ← xget HScan.indent
  let t ← hlex (hBlockToken o f indent literal)
  fEnqueueOwned t

/-- scanner.c:1857-1882 `yaml_parser_fetch_flow_scalar` -/
def fFlowScalar (f : Nat) (single : Bool) : HF Unit := do
  fSaveKey
  fAllow false
  let t ← hlex (hFlowToken o f single)
  fEnqueueOwned t

/-- scanner.c:1888-1913 `yaml_parser_fetch_plain_scalar` (and 3580-3583: the change of `simple_key_allowed`). -/
def fPlainScalar (f : Nat) : HF Unit := do
  fSaveKey
  fAllow false
  let s ← xget fun x => (x.indent, x.flowLevel)
  let t ← hlex (hPlainToken o f s.1 (s.2 != 0))
  xmod fun x => { x with allowed := t.2 || x.allowed }
  fEnqueueOwned t.1

/-- Produce the token(s) of a given kind. -/
def fKind (f : Nat) : Kind → HF Unit
  | .streamEnd => fStreamEnd
  | .directive => fDirective o f
  | .documentStart => fDocumentIndicator o .documentStart
  | .documentEnd => fDocumentIndicator o .documentEnd
  | .flowStart d => fFlowStart o d
  | .flowEnd d => fFlowEnd o d
  | .flowEntry => fFlowEntry o
  | .blockEntry => fBlockEntry o
  | .key => fKey o
  | .value => fValue o
  | .anchor a => fAnchor o f a
  | .tag => fTag o f
  | .block l => fBlockScalar o f l
  | .quoted s => fFlowScalar o f s
  | .plain => fPlainScalar o f
  | .unknown => do
    let m ← xget HScan.mark
    xfail (some (.scanner (some "while scanning for the next token") m "found character that cannot start any token" m))

/-- scanner.c:860-1049 `yaml_parser_fetch_next_token` -/
def fNext (f : Nat) : HF Unit := do
  hlex (hin o (cacheC 1))
  let s ← xget fun x => (x.startProduced, x.flowLevel, x.allowed)
  if s.1 then do
    let allowed ← hlex (hin o (scanToNext (s.2.1 != 0) f f s.2.2))
    fAllow allowed
    fStale
    let column ← xget fun x => (x.mark.column : Int)
    fUnrollIndent column
    hlex (hin o (cacheC 4))
    let kind ← hlex (hin o (dispatch (s.2.1 != 0)))
    fKind o f kind
  else fStreamStart

/-- scanner.c:832-838: the loop that looks for a possible simple key at the head of the queue. -/
def fPendingLoop (x : HScan) : Nat → Nat → HM Bool
  | 0, _ => return false
  | n + 1, i => do
    let k : SimpleKey ← hGet i x.keys
    if k.possible && k.tokenNumber == x.tokensParsed then return true else fPendingLoop x n (i + 1)

def fPending : HF Bool := fun x => do
  let b ← fPendingLoop x x.keys.top 0
  return (.ok b, x)

/-- scanner.c:800-853 `yaml_parser_fetch_more_tokens` -/
def fMore (f : Nat) : Nat → HF Unit
  | 0 => xstop .fuel
  | n + 1 => do
    if ← xget fun x => x.tokens.head == x.tokens.tail then do
      fNext o f
      fMore f n
    else do
      fStale
      if ← fPending then do
        fNext o f
        fMore f n
      else pure ()

/-- `DEQUEUE` and `tokens_parsed++` (scanner.c:766-768). -/
def fDequeue : HF HToken := fun x => do
  let (t, q) ← qPop x.tokens
  return (.ok t, { x with tokens := q, tokensParsed := x.tokensParsed + 1 })

/-- `yaml_parser_fetch_more_tokens` and `DEQUEUE` (scanner.c:759-768). -/
def fToken (f : Nat) : HF HToken := do
  fMore o f f
  fDequeue

/-! ### The parser object -/

/-- api.c:202-206: the label `error` of `yaml_parser_initialize`, before there are stacks of the parser. -/
def fOpenError (x : HScan) : HM (Bool × HScan) := do
  free x.rest.rawBuffer
  free x.rest.buffer
  free x.tokens.start
  free x.indents.start
  free x.keys.start
  return (false, x)

/-- api.c:185-190: the queue and the stacks of the scanner. -/
def fOpenQueues (x : HScan) : HM (Bool × HScan) := do
  let (ok, tokens) ← qInit HToken
  let x := { x with tokens }
  if !ok then fOpenError x
  else do
    let (ok, indents) ← hInit Int
    let x := { x with indents }
    if !ok then fOpenError x
    else do
      let (ok, keys) ← hInit SimpleKey
      let x := { x with keys }
      if !ok then fOpenError x else return (true, x)

/-- api.c:180-190: the first part of `yaml_parser_initialize`, with the input and the encoding that are set afterwards; the contents of the two buffers of
the reader are in `Model/Reader.lean`. -/
def fOpen (enc : Option Spec.Enc) (bytes : List UInt8) : HM (Bool × HScan) := do
  let x : HScan := { inp := RS.init bytes enc, enc := (Spec.chosen enc bytes).1 }
  let rawBuffer ← malloc (.bytes [0])
  let x := { x with rest := { x.rest with rawBuffer } }
  if rawBuffer.isNone then fOpenError x
  else do
    let buffer ← malloc (.bytes [0])
    let x := { x with rest := { x.rest with buffer } }
    if buffer.isNone then fOpenError x else fOpenQueues x

/-- api.c:224-226: the tokens that are left; `n` is their number. -/
def fDropTokens : Nat → HQue → HM HQue
  | 0, q => return q
  | n + 1, q => do
    let (t, q) ← qPop (α := HToken) q
    tokenDelete t.data
    fDropTokens n q

/-- api.c:222-229: the first part of `yaml_parser_delete`. -/
def fClose (x : HScan) : HM Unit := do
  free x.rest.rawBuffer
  free x.rest.buffer
  let q ← fDropTokens (x.tokens.tail - x.tokens.head) x.tokens
  free q.start
  free x.indents.start
  free x.keys.start

/-- The macro `PEEK_TOKEN` (`src/parser.c:48-50`), when no token is available. Simplified: the token leaves the queue at once and not in `SKIP_TOKEN`
(`src/parser.c:56-60`), between which nothing looks at the queue; and a failure for lack of memory that leaves `parser->error`
unset (C71) counts as `YAML_MEMORY_ERROR`, so that the parser on the heap is not called again after it as it could be in C. -/
def scanNext (f : Nat) (x : HScan) : HM (Except Fail HToken × HScan) := do
  match ← fToken o f x with
  | (.ok t, x) => return (.ok t, x)
  | (.error (some e), x) => return (.error e, x)
  | (.error none, x) => return (.error .memory, x)

/-- The scanner as the parser uses it. -/
def scanSrc (f : Nat) (enc : Option Spec.Enc) (bytes : List UInt8) : HSrc HScan where
  next := scanNext o f
  depth x := x.indents.top + x.flowLevel
  start := fOpen enc bytes
  close := fClose

/-- What a client of `yaml_parser_scan` sees: tokens, and how the calls ended. -/
inductive ScanEnd
  | all                                -- STREAM-END was delivered, or all calls were made
  | failed (e : Option Fail)           -- a call returned 0; `none` is `YAML_NO_ERROR`
  deriving DecidableEq, Repr

/-- At most `k` calls of `yaml_parser_scan` (scanner.c:742-776), until STREAM-END or a call that returns 0. -/
def fScan (f : Nat) : Nat → HScan → HM (List HToken × ScanEnd × HScan)
  | 0, x => return ([], .all, x)
  | k + 1, x => do
    match ← fToken o f x with
    | (.error e, x) => return ([], .failed e, x)
    | (.ok t, x) =>
      if t.data = .plain .streamEnd then return ([t], .all, x)
      else do
        let (ts, e, x) ← fScan f k x
        return (t :: ts, e, x)

/-- The client deletes its tokens. -/
def deleteTokens : List HToken → HM Unit
  | [] => return ()
  | t :: ts => do
    tokenDelete t.data
    deleteTokens ts

/-- A client: initialize and scan. The result is `none` if there was no parser. -/
def scanOpen (f k : Nat) (enc : Option Spec.Enc) (bytes : List UInt8) : HM (Option (List HToken × ScanEnd × HPS HScan)) := do
  let (ok, p) ← hParserInit (scanSrc o f enc bytes)
  if !ok then return none
  else do
    let (ts, e, src) ← fScan o f k p.src
    return some (ts, e, { p with src })

/-- And delete the parser, then the tokens. -/
def scanSession (f k : Nat) (enc : Option Spec.Enc) (bytes : List UInt8) : HM (Option (List HToken × ScanEnd)) := do
  match ← scanOpen o f k enc bytes with
  | none => return none
  | some (ts, e, p) => do
    hParserDelete (scanSrc o f enc bytes) p
    deleteTokens ts
    return some (ts, e)

end

end LibYaml
