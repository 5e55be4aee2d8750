import Verif.Model.Types

/-!
# Model of the parser (`src/parser.c`)

The parser is written over an arbitrary token source. `TokSrc.next` stands for `yaml_parser_fetch_more_tokens` followed
by taking the head of the token queue: `PEEK_TOKEN` fetches when no token is available, and nothing but the nesting
check looks at the scanner between `PEEK_TOKEN` and `SKIP_TOKEN`. `TokSrc.depth` is `(indents.top - indents.start) +
flow_level`. Allocation is assumed to succeed. Each state function returns an event or fails; a popped empty stack
and an unavailable token where the code does not check for `NULL` are `ub`.
-/

namespace LibYaml

/-- Where tokens come from. -/
structure TokSrc (σ : Type) where
  next : σ → Except Fail (Token × σ)
  depth : σ → Nat

/-- yaml.h:1013-1065 `yaml_parser_state_t` -/
inductive PState
  | streamStart | implicitDocumentStart | documentStart | documentContent | documentEnd
  | blockNode
  | blockSequenceFirstEntry | blockSequenceEntry | indentlessSequenceEntry
  | blockMappingFirstKey | blockMappingKey | blockMappingValue
  | flowSequenceFirstEntry | flowSequenceEntry
  | flowSequenceEntryMappingKey | flowSequenceEntryMappingValue | flowSequenceEntryMappingEnd
  | flowMappingFirstKey | flowMappingKey | flowMappingValue | flowMappingEmptyValue
  | done
  deriving DecidableEq, Repr

/-- The fields of `yaml_parser_t` used by the parser (yaml.h:1087-1309). Stacks have their top first.
`avail` is the head of the queue if `token_available`, `ended` is `stream_end_produced`. -/
structure PS (σ : Type) where
  src : σ
  avail : Option Token := none
  ended : Bool := false
  state : PState := .streamStart
  states : List PState := []
  marks : List Mark := []
  tags : List TagDir := []

/-- Parsing computations: state and failure. -/
abbrev PM (σ : Type) := StateT (PS σ) (Except Fail)

variable {σ : Type}

/-- Failure. -/
def pfail {α : Type} (e : Fail) : PM σ α := fun _ => .error e

/-- parser.c:48-50 `PEEK_TOKEN` followed by `if (!token) return 0`. -/
def peek (S : TokSrc σ) : PM σ Token := fun s =>
  match s.avail with
  | some t => .ok (t, s)
  | none =>
    match S.next s.src with
    | .error e => .error e
    | .ok (t, src) => .ok (t, { s with avail := some t, src := src })

/-- `PEEK_TOKEN` without a check of the result: if nothing can be fetched a null pointer is dereferenced. -/
def peekUnchecked (S : TokSrc σ) : PM σ Token := fun s =>
  match peek S s with
  | .error _ => .error .ub
  | r => r

/-- parser.c:56-61 `SKIP_TOKEN` -/
def skipTok : PM σ Unit := fun s =>
  match s.avail with
  | none => .error .ub
  | some t => .ok ((), { s with avail := none, ended := (t.data == .streamEnd) })

/-- `PUSH(parser, parser->states, state)` -/
def pushState (st : PState) : PM σ Unit := fun s => .ok ((), { s with states := st :: s.states })

/-- `parser->state = state` -/
def setState (st : PState) : PM σ Unit := fun s => .ok ((), { s with state := st })

/-- `parser->state = POP(parser, parser->states)` -/
def popState : PM σ Unit := fun s =>
  match s.states with
  | [] => .error .ub
  | st :: rest => .ok ((), { s with state := st, states := rest })

/-- `PUSH(parser, parser->marks, mark)` -/
def pushMark (m : Mark) : PM σ Unit := fun s => .ok ((), { s with marks := m :: s.marks })

/-- `POP(parser, parser->marks)` -/
def popMark : PM σ Mark := fun s =>
  match s.marks with
  | [] => .error .ub
  | m :: rest => .ok (m, { s with marks := rest })

/-- `parser->tag_directives` -/
def getTags : PM σ (List TagDir) := fun s => .ok (s.tags, s)
def setTags (ts : List TagDir) : PM σ Unit := fun s => .ok ((), { s with tags := ts })

/-- parser.c:199-208 `yaml_parser_set_parser_error` -/
def perr {α : Type} (problem : String) (mark : Mark) : PM σ α := pfail (.parser none {} problem mark)

/-- parser.c:210-222 `yaml_parser_set_parser_error_context` -/
def perrCtx {α : Type} (context : String) (cmark : Mark) (problem : String) (mark : Mark) : PM σ α :=
  pfail (.parser (some context) cmark problem mark)

/-- parser.c:1245-1263 `yaml_parser_process_empty_scalar` -/
def emptyScalar (mark : Mark) : PM σ Event :=
  pure { data := .scalar none none [] true false .plain, start := mark, stop := mark }

/-- parser.c:331-350 `yaml_parser_parse_stream_start` -/
def parseStreamStart (S : TokSrc σ) : PM σ Event := do
  let token ← peek S
  match token.data with
  | .streamStart enc =>
    setState .implicitDocumentStart
    skipTok
    pure { data := .streamStart (some enc), start := token.start, stop := token.start }
  | _ => perr "did not find expected <stream-start>" token.start

/-- parser.c:1381-1417 `yaml_parser_append_tag_directive` on the list of directives. -/
def appendTag (value : TagDir) (allowDuplicates : Bool) (mark : Mark) (tags : List TagDir) : Except Fail (List TagDir) :=
  if tags.any (fun d => d.handle == value.handle) then
    if allowDuplicates then .ok tags else .error (.parser none {} "found duplicate %TAG directive" mark)
  else .ok (tags ++ [value])

/-- The same as a parser action. -/
def appendTagM (value : TagDir) (allowDuplicates : Bool) (mark : Mark) : PM σ Unit := do
  match appendTag value allowDuplicates mark (← getTags) with
  | .error e => pfail e
  | .ok ts => setTags ts

/-- parser.c:1273-1277 `default_tag_directives` -/
def defaultTags : List TagDir :=
  [⟨lit ['!'], lit ['!']⟩,
   ⟨lit ['!', '!'], lit ['t','a','g',':','y','a','m','l','.','o','r','g',',','2','0','0','2',':']⟩]

/-- parser.c:1293-1337, the loop of `yaml_parser_process_directives`: returns the version and the tag directives found.
The fuel bounds the number of directives; `fuel` is an outcome of its own. -/
def directivesLoop (S : TokSrc σ) : Nat → Option Version → List TagDir → PM σ (Option Version × List TagDir)
  | 0, _, _ => pfail .fuel
  | fuel + 1, version, tags => do
    let token ← peek S
    match token.data with
    | .versionDirective v =>
      if version.isSome then perr "found duplicate %YAML directive" token.start
      else if v.major ≠ 1 ∨ (v.minor ≠ 1 ∧ v.minor ≠ 2) then perr "found incompatible YAML document" token.start
      else
        skipTok
        directivesLoop S fuel (some v) tags
    | .tagDirective d =>
      appendTagM d false token.start
      skipTok
      directivesLoop S fuel version (tags ++ [d])
    | _ => pure (version, tags)

/-- parser.c:1268-1376 `yaml_parser_process_directives` -/
def processDirectives (S : TokSrc σ) (fuel : Nat) : PM σ (Option Version × List TagDir) := do
  let r ← directivesLoop S fuel none []
  let token ← peek S
  appendTagM ⟨lit ['!'], lit ['!']⟩ true token.start
  appendTagM ⟨lit ['!', '!'], lit ['t','a','g',':','y','a','m','l','.','o','r','g',',','2','0','0','2',':']⟩ true token.start
  pure r

/-- parser.c:376-383: skip extra document end indicators. -/
def skipDocumentEnds (S : TokSrc σ) : Nat → PM σ Unit
  | 0 => pfail .fuel
  | fuel + 1 => do
    let token ← peek S
    match token.data with
    | .documentEnd =>
      skipTok
      skipDocumentEnds S fuel
    | _ => pure ()

/-- Tokens that begin an explicit document or end the stream (parser.c:387-390). -/
def TokData.startsDocument : TokData → Bool
  | .versionDirective _ | .tagDirective _ | .documentStart | .streamEnd => true
  | _ => false

/-- parser.c:360-450 `yaml_parser_parse_document_start` -/
def parseDocumentStart (S : TokSrc σ) (fuel : Nat) (implicit : Bool) : PM σ Event := do
  if !implicit then skipDocumentEnds S fuel
  let token ← peek S
  if implicit && !token.data.startsDocument then
    let _ ← processDirectives S fuel
    pushState .documentEnd
    setState .blockNode
    pure { data := .documentStart none [] true, start := token.start, stop := token.start }
  else if token.data ≠ .streamEnd then
    let start := token.start
    let (version, tags) ← processDirectives S fuel
    let token ← peek S
    if token.data = .documentStart then
      pushState .documentEnd
      setState .documentContent
      skipTok
      pure { data := .documentStart version tags false, start := start, stop := token.stop }
    else perr "did not find expected <document start>" token.start
  else
    setState .done
    skipTok
    pure { data := .streamEnd, start := token.start, stop := token.stop }

/-- Token data of the properties of a node: anchor, tag (handle, suffix, position), start and end (parser.c:568-612).
Returns also the token that follows. -/
structure Props where
  anchor : Option Text := none
  tag : Option (Text × Text × Mark) := none
  start : Mark
  stop : Mark

/-- parser.c:568-612: optional anchor and tag in any order. -/
def parseProps (S : TokSrc σ) (token : Token) : PM σ (Props × Token) := do
  match token.data with
  | .anchor a =>
    skipTok
    let t2 ← peek S
    match t2.data with
    | .tag h s =>
      skipTok
      let t3 ← peek S
      pure ({ anchor := some a, tag := some (h, s, t2.start), start := token.start, stop := t2.stop }, t3)
    | _ => pure ({ anchor := some a, start := token.start, stop := token.stop }, t2)
  | .tag h s =>
    skipTok
    let t2 ← peek S
    match t2.data with
    | .anchor a =>
      skipTok
      let t3 ← peek S
      pure ({ anchor := some a, tag := some (h, s, token.start), start := token.start, stop := t2.stop }, t3)
    | _ => pure ({ tag := some (h, s, token.start), start := token.start, stop := token.stop }, t2)
  | _ => pure ({ start := token.start, stop := token.start }, token)

/-- parser.c:614-652: expand the tag handle. -/
def resolveTag (tags : List TagDir) (p : Props) : Except Fail (Option Text) :=
  match p.tag with
  | none => .ok none
  | some (handle, suffix, mark) =>
    if handle = [] then .ok (some suffix)
    else
      match tags.find? (fun d => d.handle == handle) with
      | some d => .ok (some (d.pfx ++ suffix))
      | none => .error (.parser (some "while parsing a node") p.start "found undefined tag handle" mark)

/-- `resolveTag` as an action. -/
def resolveTagM (p : Props) : PM σ (Option Text) := do
  match resolveTag (← getTags) p with
  | .error e => pfail e
  | .ok t => pure t

/-- `STACK_LIMIT(parser, parser->indents, MAX_NESTING_LEVEL - parser->flow_level)` fails: parser.c:683-686, 694-697,
705-708, 716-719. `maxLevel` is `MAX_NESTING_LEVEL` (parser.c:67, an `int`). -/
def checkLevel (S : TokSrc σ) (maxLevel : Int) (start mark : Mark) : PM σ Unit := fun s =>
  if (S.depth s.src : Int) < maxLevel then .ok ((), s)
  else .error (.parser (some "while parsing") start
    "Maximum nesting level reached, set with yaml_set_max_nest_level())" mark)

/-- parser.c:654-746: the content of a node after its properties. -/
def nodeContent (S : TokSrc σ) (maxLevel : Int) (block indentless : Bool) (p : Props) (tag : Option Text)
    (token : Token) : PM σ Event := do
  let implicit : Bool := tag.isNone || tag == some []
  if indentless && token.data == .blockEntry then
    setState .indentlessSequenceEntry
    pure { data := .sequenceStart p.anchor tag implicit .block, start := p.start, stop := token.stop }
  else
    match token.data with
    | .scalar value style =>
      let plainImplicit : Bool := (style == .plain && tag.isNone) || tag == some (lit ['!'])
      let quotedImplicit : Bool := !plainImplicit && tag.isNone
      popState
      skipTok
      pure { data := .scalar p.anchor tag value plainImplicit quotedImplicit style, start := p.start, stop := token.stop }
    | .flowSequenceStart =>
      checkLevel S maxLevel p.start token.start
      setState .flowSequenceFirstEntry
      pure { data := .sequenceStart p.anchor tag implicit .flow, start := p.start, stop := token.stop }
    | .flowMappingStart =>
      checkLevel S maxLevel p.start token.start
      setState .flowMappingFirstKey
      pure { data := .mappingStart p.anchor tag implicit .flow, start := p.start, stop := token.stop }
    | d =>
      if block && d == .blockSequenceStart then
        checkLevel S maxLevel p.start token.start
        setState .blockSequenceFirstEntry
        pure { data := .sequenceStart p.anchor tag implicit .block, start := p.start, stop := token.stop }
      else if block && d == .blockMappingStart then
        checkLevel S maxLevel p.start token.start
        setState .blockMappingFirstKey
        pure { data := .mappingStart p.anchor tag implicit .block, start := p.start, stop := token.stop }
      else if p.anchor.isSome || tag.isSome then
        popState
        pure { data := .scalar p.anchor tag [] implicit false .plain, start := p.start, stop := p.stop }
      else
        perrCtx (if block then "while parsing a block node" else "while parsing a flow node") p.start
          "did not find expected node content" token.start

/-- parser.c:547-755 `yaml_parser_parse_node` -/
def parseNode (S : TokSrc σ) (maxLevel : Int) (block indentless : Bool) : PM σ Event := do
  let token ← peek S
  match token.data with
  | .alias a =>
    popState
    skipTok
    pure { data := .alias a, start := token.start, stop := token.stop }
  | _ =>
    let (p, token) ← parseProps S token
    let tag ← resolveTagM p
    nodeContent S maxLevel block indentless p tag token

/-- parser.c:458-480 `yaml_parser_parse_document_content` -/
def parseDocumentContent (S : TokSrc σ) (maxLevel : Int) : PM σ Event := do
  let token ← peek S
  if token.data.startsDocument || token.data == .documentEnd then
    popState
    emptyScalar token.start
  else parseNode S maxLevel true false

/-- parser.c:488-518 `yaml_parser_parse_document_end` -/
def parseDocumentEnd (S : TokSrc σ) : PM σ Event := do
  let token ← peek S
  if token.data = .documentEnd then
    skipTok
    setTags []
    setState .documentStart
    pure { data := .documentEnd false, start := token.start, stop := token.stop }
  else
    setTags []
    setState .documentStart
    pure { data := .documentEnd true, start := token.start, stop := token.start }

/-- parser.c:766-771 and its copies: remember where the collection starts and skip its first token. -/
def enterCollection (S : TokSrc σ) (first : Bool) : PM σ Unit := do
  if first then
    let token ← peekUnchecked S
    pushMark token.start
    skipTok

/-- parser.c:760-810 `yaml_parser_parse_block_sequence_entry` -/
def parseBlockSequenceEntry (S : TokSrc σ) (maxLevel : Int) (first : Bool) : PM σ Event := do
  enterCollection S first
  let token ← peek S
  match token.data with
  | .blockEntry =>
    skipTok
    let t2 ← peek S
    if t2.data ≠ .blockEntry ∧ t2.data ≠ .blockEnd then
      pushState .blockSequenceEntry
      parseNode S maxLevel true false
    else
      setState .blockSequenceEntry
      emptyScalar token.stop
  | .blockEnd =>
    popState
    let _ ← popMark
    skipTok
    pure { data := .sequenceEnd, start := token.start, stop := token.stop }
  | _ =>
    let m ← popMark
    perrCtx "while parsing a block collection" m "did not find expected '-' indicator" token.start

/-- parser.c:818-855 `yaml_parser_parse_indentless_sequence_entry` -/
def parseIndentlessSequenceEntry (S : TokSrc σ) (maxLevel : Int) : PM σ Event := do
  let token ← peek S
  if token.data = .blockEntry then
    skipTok
    let t2 ← peek S
    if t2.data ≠ .blockEntry ∧ t2.data ≠ .key ∧ t2.data ≠ .value ∧ t2.data ≠ .blockEnd then
      pushState .indentlessSequenceEntry
      parseNode S maxLevel true false
    else
      setState .indentlessSequenceEntry
      emptyScalar token.stop
  else
    popState
    pure { data := .sequenceEnd, start := token.start, stop := token.start }

/-- parser.c:868-920 `yaml_parser_parse_block_mapping_key` -/
def parseBlockMappingKey (S : TokSrc σ) (maxLevel : Int) (first : Bool) : PM σ Event := do
  enterCollection S first
  let token ← peek S
  match token.data with
  | .key =>
    skipTok
    let t2 ← peek S
    if t2.data ≠ .key ∧ t2.data ≠ .value ∧ t2.data ≠ .blockEnd then
      pushState .blockMappingValue
      parseNode S maxLevel true true
    else
      setState .blockMappingValue
      emptyScalar token.stop
  | .blockEnd =>
    popState
    let _ ← popMark
    skipTok
    pure { data := .mappingEnd, start := token.start, stop := token.stop }
  | _ =>
    let m ← popMark
    perrCtx "while parsing a block mapping" m "did not find expected key" token.start

/-- parser.c:933-967 `yaml_parser_parse_block_mapping_value` -/
def parseBlockMappingValue (S : TokSrc σ) (maxLevel : Int) : PM σ Event := do
  let token ← peek S
  if token.data = .value then
    skipTok
    let t2 ← peek S
    if t2.data ≠ .key ∧ t2.data ≠ .value ∧ t2.data ≠ .blockEnd then
      pushState .blockMappingKey
      parseNode S maxLevel true true
    else
      setState .blockMappingKey
      emptyScalar token.stop
  else
    setState .blockMappingKey
    emptyScalar token.start

/-- parser.c:1031-1035 and 1198-1202: the end of a flow collection. -/
def endFlow (d : EvData) (token : Token) : PM σ Event := do
  popState
  let _ ← popMark
  skipTok
  pure { data := d, start := token.start, stop := token.stop }

/-- parser.c:1000-1011 and 1157-1168: between two entries there must be a comma. Returns the token after it. -/
def flowSeparator (S : TokSrc σ) (first : Bool) (token : Token) (context problem : String) : PM σ Token := do
  if first then pure token
  else if token.data = .flowEntry then
    skipTok
    peek S
  else
    let m ← popMark
    perrCtx context m problem token.start

/-- parser.c:983-1036 `yaml_parser_parse_flow_sequence_entry` -/
def parseFlowSequenceEntry (S : TokSrc σ) (maxLevel : Int) (first : Bool) : PM σ Event := do
  enterCollection S first
  let token ← peek S
  if token.data ≠ .flowSequenceEnd then
    let token ← flowSeparator S first token "while parsing a flow sequence" "did not find expected ',' or ']'"
    if token.data = .key then
      setState .flowSequenceEntryMappingKey
      skipTok
      pure { data := .mappingStart none none true .flow, start := token.start, stop := token.stop }
    else if token.data ≠ .flowSequenceEnd then
      pushState .flowSequenceEntry
      parseNode S maxLevel false false
    else endFlow .sequenceEnd token
  else endFlow .sequenceEnd token

/-- parser.c:1044-1072 `yaml_parser_parse_flow_sequence_entry_mapping_key` -/
def parseFlowSequenceEntryMappingKey (S : TokSrc σ) (maxLevel : Int) : PM σ Event := do
  let token ← peek S
  if token.data ≠ .value ∧ token.data ≠ .flowEntry ∧ token.data ≠ .flowSequenceEnd then
    pushState .flowSequenceEntryMappingValue
    parseNode S maxLevel false false
  else if token.data = .flowSequenceEnd then
    setState .flowSequenceEntryMappingValue
    emptyScalar token.start
  else
    skipTok
    setState .flowSequenceEntryMappingValue
    emptyScalar token.stop

/-- parser.c:1079-1102 `yaml_parser_parse_flow_sequence_entry_mapping_value` -/
def parseFlowSequenceEntryMappingValue (S : TokSrc σ) (maxLevel : Int) : PM σ Event := do
  let token ← peek S
  if token.data = .value then
    skipTok
    let t2 ← peek S
    if t2.data ≠ .flowEntry ∧ t2.data ≠ .flowSequenceEnd then
      pushState .flowSequenceEntryMappingEnd
      parseNode S maxLevel false false
    else
      setState .flowSequenceEntryMappingEnd
      emptyScalar t2.start
  else
    setState .flowSequenceEntryMappingEnd
    emptyScalar token.start

/-- parser.c:1110-1123 `yaml_parser_parse_flow_sequence_entry_mapping_end` -/
def parseFlowSequenceEntryMappingEnd (S : TokSrc σ) : PM σ Event := do
  let token ← peek S
  setState .flowSequenceEntry
  pure { data := .mappingEnd, start := token.start, stop := token.start }

/-- parser.c:1139-1203 `yaml_parser_parse_flow_mapping_key` -/
def parseFlowMappingKey (S : TokSrc σ) (maxLevel : Int) (first : Bool) : PM σ Event := do
  enterCollection S first
  let token ← peek S
  if token.data ≠ .flowMappingEnd then
    let token ← flowSeparator S first token "while parsing a flow mapping" "did not find expected ',' or '}'"
    if token.data = .key then
      skipTok
      let t2 ← peek S
      if t2.data ≠ .value ∧ t2.data ≠ .flowEntry ∧ t2.data ≠ .flowMappingEnd then
        pushState .flowMappingValue
        parseNode S maxLevel false false
      else
        setState .flowMappingValue
        emptyScalar t2.start
    else if token.data ≠ .flowMappingEnd then
      pushState .flowMappingEmptyValue
      parseNode S maxLevel false false
    else endFlow .mappingEnd token
  else endFlow .mappingEnd token

/-- parser.c:1209-1240 `yaml_parser_parse_flow_mapping_value` -/
def parseFlowMappingValue (S : TokSrc σ) (maxLevel : Int) (empty : Bool) : PM σ Event := do
  let token ← peek S
  if empty then
    setState .flowMappingKey
    emptyScalar token.start
  else if token.data = .value then
    skipTok
    let t2 ← peek S
    if t2.data ≠ .flowEntry ∧ t2.data ≠ .flowMappingEnd then
      pushState .flowMappingKey
      parseNode S maxLevel false false
    else
      setState .flowMappingKey
      emptyScalar t2.start
  else
    setState .flowMappingKey
    emptyScalar token.start

/-- parser.c:244-325 `yaml_parser_state_machine`. `YAML_PARSE_BLOCK_NODE_OR_INDENTLESS_SEQUENCE_STATE` and
`YAML_PARSE_FLOW_NODE_STATE` are never assigned anywhere in the library and are left out. -/
def stateMachine (S : TokSrc σ) (maxLevel : Int) (fuel : Nat) : PM σ Event := fun s =>
  match s.state with
  | .streamStart => parseStreamStart S s
  | .implicitDocumentStart => parseDocumentStart S fuel true s
  | .documentStart => parseDocumentStart S fuel false s
  | .documentContent => parseDocumentContent S maxLevel s
  | .documentEnd => parseDocumentEnd S s
  | .blockNode => parseNode S maxLevel true false s
  | .blockSequenceFirstEntry => parseBlockSequenceEntry S maxLevel true s
  | .blockSequenceEntry => parseBlockSequenceEntry S maxLevel false s
  | .indentlessSequenceEntry => parseIndentlessSequenceEntry S maxLevel s
  | .blockMappingFirstKey => parseBlockMappingKey S maxLevel true s
  | .blockMappingKey => parseBlockMappingKey S maxLevel false s
  | .blockMappingValue => parseBlockMappingValue S maxLevel s
  | .flowSequenceFirstEntry => parseFlowSequenceEntry S maxLevel true s
  | .flowSequenceEntry => parseFlowSequenceEntry S maxLevel false s
  | .flowSequenceEntryMappingKey => parseFlowSequenceEntryMappingKey S maxLevel s
  | .flowSequenceEntryMappingValue => parseFlowSequenceEntryMappingValue S maxLevel s
  | .flowSequenceEntryMappingEnd => parseFlowSequenceEntryMappingEnd S s
  | .flowMappingFirstKey => parseFlowMappingKey S maxLevel true s
  | .flowMappingKey => parseFlowMappingKey S maxLevel false s
  | .flowMappingValue => parseFlowMappingValue S maxLevel false s
  | .flowMappingEmptyValue => parseFlowMappingValue S maxLevel true s
  | .done => .error .ub    -- not reached: excluded by yaml_parser_parse

/-- A parser object: the state and the recorded error (`parser->error` and the other error fields). After a failure
only the error is looked at, so the state is left as it was before the failing call. -/
structure Parser (σ : Type) where
  st : PS σ
  error : Option Fail := none

/-- Result of one call of `yaml_parser_parse`: success with an event or with an empty event, or failure. -/
inductive POut
  | event (e : Event)
  | noEvent
  | failed
  deriving DecidableEq, Repr

/-- parser.c:180-197 `yaml_parser_parse`; undefined behaviour and lack of fuel are not errors of the parser object. -/
def parse (S : TokSrc σ) (maxLevel : Int) (fuel : Nat) (p : Parser σ) : Except Fail (POut × Parser σ) :=
  if p.st.ended || p.error.isSome || p.st.state = .done then .ok (.noEvent, p)
  else
    match stateMachine S maxLevel fuel p.st with
    | .ok (e, st) => .ok (.event e, { p with st := st })
    | .error .ub => .error .ub
    | .error .fuel => .error .fuel
    | .error e => .ok (.failed, { p with error := some e })

/-- `n` successive calls. -/
def parseN (S : TokSrc σ) (maxLevel : Int) (fuel : Nat) : Nat → Parser σ → Except Fail (List POut × Parser σ)
  | 0, p => .ok ([], p)
  | n + 1, p =>
    match parse S maxLevel fuel p with
    | .error e => .error e
    | .ok (o, p) =>
      match parseN S maxLevel fuel n p with
      | .error e => .error e
      | .ok (os, p) => .ok (o :: os, p)

/-- A parser that has not read anything (`yaml_parser_initialize` and an input). -/
def Parser.init (s : σ) : Parser σ := { st := { src := s } }

/-- The token source given by a list; behind the end of the list a read fails. -/
def listSrc (e : Fail) : TokSrc (List Token) where
  next
    | [] => .error e
    | t :: r => .ok (t, r)
  depth _ := 0

end LibYaml
