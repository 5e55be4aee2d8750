import Verif.Model.LoaderHeap
import Verif.Model.Parser

/-!
# The parser on the heap (`src/parser.c`, and the parser object of `src/api.c`)

Here the strings of tokens and events, the stacks of the parser and its tag directives live in the heap, and every allocation may fail. The parser
works on an arbitrary scanner with memory (`HSrc`). `memSrc` makes one of a token source on values: a token gets its strings when it becomes the head of
the queue, and the tokens behind it and the other memory of the scanner are not represented, except for the blocks that `yaml_parser_initialize` allocates for them.
The scanner of `Model/ScannerHeapFetch.lean` is another one.
-/

namespace LibYaml

/-- A token as the scanner puts it into the queue. -/
def giveToken : TokData → HM HTokData
  | .tagDirective d => do
    let p ← giveText d.handle
    let q ← giveText d.pfx
    return .tagDirective p q
  | .alias a => do return .alias (← giveText a)
  | .anchor a => do return .anchor (← giveText a)
  | .tag h s => do
    let p ← giveText h
    let q ← giveText s
    return .tag p q
  | .scalar v st => do return .scalar (← giveText v) (Spec.textBytes v).length st
  | d => return .plain d

/-- api.c:583-617 `yaml_token_delete` -/
def tokenDelete : HTokData → HM Unit
  | .tagDirective p q => do free p; free q
  | .alias p => free p
  | .anchor p => free p
  | .tag p q => do free p; free q
  | .scalar p _ _ => free p
  | .plain _ => return ()

/-- A scanner with its memory, as the parser uses it: `next` is `yaml_parser_fetch_more_tokens` together with taking the token off the queue, `depth` is
`(indents.top - indents.start) + flow_level`, `start` allocates buffers, queue and stacks (api.c:180-190), and `close` frees them (api.c:222-231). -/
structure HSrc (ρ : Type) where
  next : ρ → HM (Except Fail HToken × ρ)
  depth : ρ → Nat
  start : HM (Bool × ρ)
  close : ρ → HM Unit

/-- The fields of `yaml_parser_t` (yaml.h:1087-1309) that the parser uses, as in `PS`; `src` are those of the reader and the scanner. `avail` is the head of
the queue if `token_available` is set: here it has left the queue already. -/
structure HPS (ρ : Type) where
  src : ρ
  avail : Option HToken := none
  ended : Bool := false
  state : PState := .streamStart
  states : HStk := {}
  marks : HStk := {}
  tags : HStk := {}

/-- Parsing computations: they may fail with an error of the parser, and leave a parser object in any case. -/
def HP (ρ α : Type) := HPS ρ → HM (Except Fail α × HPS ρ)

variable {ρ α β : Type}

def HP.bind (m : HP ρ α) (k : α → HP ρ β) : HP ρ β := fun p h =>
  match m p h with
  | .error e => .error e
  | .ok ((.error e, p), h) => .ok ((.error e, p), h)
  | .ok ((.ok a, p), h) => k a p h

instance : Monad (HP ρ) where
  pure a := fun p h => .ok ((.ok a, p), h)
  bind := HP.bind

/-- `return 0` with an error. -/
def hfail (e : Fail) : HP ρ α := fun p h => .ok ((.error e, p), h)

/-- A program that does not touch the parser object. -/
def hlift (m : HM α) : HP ρ α := fun p h =>
  match m h with
  | .error e => .error e
  | .ok (a, h) => .ok ((.ok a, p), h)

/-- `if (!m) goto error`, where the label `error` frees what is held by local variables. -/
def orFree (m : HP ρ α) (clean : HM Unit) : HP ρ α := fun p h =>
  match m p h with
  | .error e => .error e
  | .ok ((.error e, p), h) =>
    match clean h with
    | .error e => .error e
    | .ok (_, h) => .ok ((.error e, p), h)
  | .ok ((.ok a, p), h) => .ok ((.ok a, p), h)

/-- `goto error` with an error. -/
def hstop (e : Fail) (clean : HM Unit) : HP ρ α := orFree (hfail e) clean

/-- parser.c:48-50 `PEEK_TOKEN` followed by `if (!token)`. -/
def hPeek (H : HSrc ρ) : HP ρ HToken := fun p h =>
  match p.avail with
  | some t => .ok ((.ok t, p), h)
  | none =>
    match H.next p.src h with
    | .error e => .error e
    | .ok ((.error e, src), h) => .ok ((.error e, { p with src }), h)
    | .ok ((.ok t, src), h) => .ok ((.ok t, { p with avail := some t, src }), h)

/-- `PEEK_TOKEN` without a check of the result. -/
def hPeekUnchecked (H : HSrc ρ) : HP ρ HToken := fun p h =>
  match hPeek H p h with
  | .ok ((.error _, _), _) => .error .ub
  | r => r

/-- parser.c:56-61 `SKIP_TOKEN`: the strings of the token do not belong to the queue any more. -/
def hSkip : HP ρ Unit := fun p h =>
  match p.avail with
  | none => .error .ub
  | some t => .ok ((.ok (), { p with avail := none, ended := decide (t.data = .plain .streamEnd) }), h)

/-- `PUSH(parser, parser->states, state)` -/
def hPushState (st : PState) : HP ρ Unit := fun p => do
  let (ok, states) ← hPush st p.states
  if ok then return (.ok (), { p with states }) else return (.error .memory, { p with states })

/-- `parser->state = state` -/
def hSetState (st : PState) : HP ρ Unit := fun p h => .ok ((.ok (), { p with state := st }), h)

/-- `parser->state = POP(parser, parser->states)` -/
def hPopState : HP ρ Unit := fun p => do
  let (st, states) ← (hPop p.states : HM (PState × HStk))
  return (.ok (), { p with state := st, states })

/-- `PUSH(parser, parser->marks, mark)` -/
def hPushMark (m : Mark) : HP ρ Unit := fun p => do
  let (ok, marks) ← hPush m p.marks
  if ok then return (.ok (), { p with marks }) else return (.error .memory, { p with marks })

/-- `POP(parser, parser->marks)` -/
def hPopMark : HP ρ Mark := fun p => do
  let (m, marks) ← (hPop p.marks : HM (Mark × HStk))
  return (.ok m, { p with marks })

/-- An event and its marks. -/
structure HPEvent where
  data : HEvent
  start : Mark
  stop : Mark
  deriving DecidableEq, Repr

/-- parser.c:1245-1263 `yaml_parser_process_empty_scalar` -/
def hEmptyScalar (mark : Mark) : HP ρ HPEvent := do
  let value ← hlift (malloc (.bytes [0]))
  if value.isNone then hfail .memory
  else return { data := .scalar none none value 0 true false .plain, start := mark, stop := mark }

/-- parser.c:331-350 `yaml_parser_parse_stream_start` -/
def hParseStreamStart (H : HSrc ρ) : HP ρ HPEvent := do
  let token ← hPeek H
  match token.data with
  | .plain (.streamStart enc) => do
    hSetState .implicitDocumentStart
    hSkip
    return { data := .streamStart (some enc), start := token.start, stop := token.start }
  | _ => hfail (.parser none {} "did not find expected <stream-start>" token.start)

/-- parser.c:1387-1390, 619-621: the first of the directives from `i` on with this handle; `n` of them are left. -/
def hFindTag (handle : List UInt8) (s : HStk) : Nat → Nat → HM (Option (Ptr × Ptr))
  | 0, _ => return none
  | n + 1, i => do
    let d : Ptr × Ptr ← hGet i s
    if (← hString d.1) == handle then return some d else hFindTag handle s n (i + 1)

/-- parser.c:1397-1417: push copies of the strings. -/
def hCopyTag (handle pfx : List UInt8) : HP ρ Unit := fun p => do
  let c ← malloc (.bytes (handle ++ [0]))
  let d ← malloc (.bytes (pfx ++ [0]))
  if c.isNone || d.isNone then do
    free c
    free d
    return (.error .memory, p)
  else do
    let (ok, tags) ← hPush (c, d) p.tags
    if ok then return (.ok (), { p with tags })
    else do
      free c
      free d
      return (.error .memory, { p with tags })

/-- parser.c:1381-1417 `yaml_parser_append_tag_directive` -/
def hAppendTag (handle pfx : List UInt8) (allowDuplicates : Bool) (mark : Mark) : HP ρ Unit := fun p => do
  match ← hFindTag handle p.tags p.tags.top 0 with
  | some _ =>
    if allowDuplicates then return (.ok (), p)
    else return (.error (.parser none {} "found duplicate %TAG directive" mark), p)
  | none => hCopyTag handle pfx p

/-- The same for the directive of a token. -/
def hAppendTagOf (handle pfx : Ptr) (mark : Mark) : HP ρ Unit := do
  let hb ← hlift (hString handle)
  let pb ← hlift (hString pfx)
  hAppendTag hb pb false mark

/-- parser.c:1366-1373, 440-447: the label `error`. -/
def freeDirectives (version : Ptr) (tags : HStk) : HM Unit := do
  free version
  freeDirs tags.top tags
  free tags.start

/-- parser.c:1293-1337, the loop of `yaml_parser_process_directives`. -/
def hDirectivesLoop (H : HSrc ρ) : Nat → Ptr → HStk → HP ρ (Ptr × HStk)
  | 0, _, _ => fun _ _ => .error .fuel
  | fuel + 1, version, tags => do
    let token ← orFree (hPeek H) (freeDirectives version tags)
    match token.data with
    | .plain (.versionDirective v) =>
      if version.isSome then hstop (.parser none {} "found duplicate %YAML directive" token.start) (freeDirectives version tags)
      else if v.major ≠ 1 ∨ (v.minor ≠ 1 ∧ v.minor ≠ 2) then
        hstop (.parser none {} "found incompatible YAML document" token.start) (freeDirectives version tags)
      else do
        let p ← hlift (malloc (.version v))
        if p.isNone then hstop .memory (freeDirectives p tags)
        else do
          hSkip
          hDirectivesLoop H fuel p tags
    | .tagDirective handle pfx => do
      orFree (hAppendTagOf handle pfx token.start) (freeDirectives version tags)
      let r ← hlift (hPush (handle, pfx) tags)
      if !r.1 then hstop .memory (freeDirectives version r.2)
      else do
        hSkip
        hDirectivesLoop H fuel version r.2
    | _ => return (version, tags)

/-- parser.c:1268-1376 `yaml_parser_process_directives`; `keep` says that the references for the results are not `NULL`. The token of line 1341 is
still available, so that `hPeek` does not fetch another one. -/
def hProcessDirectives (H : HSrc ρ) (fuel : Nat) (keep : Bool) : HP ρ (Ptr × HStk) := do
  let i ← hlift (hInit (Ptr × Ptr))
  if !i.1 then hstop .memory (freeDirectives none {})
  else do
    let r ← hDirectivesLoop H fuel none i.2
    let token ← orFree (hPeek H) (freeDirectives r.1 r.2)
    orFree (hAppendTag [0x21] [0x21] true token.start) (freeDirectives r.1 r.2)
    orFree (hAppendTag [0x21, 0x21] [0x74, 0x61, 0x67, 0x3a, 0x79, 0x61, 0x6d, 0x6c, 0x2e, 0x6f, 0x72, 0x67, 0x2c, 0x32, 0x30, 0x30, 0x32, 0x3a]
      true token.start) (freeDirectives r.1 r.2)
    if keep then
      if r.2.top = 0 then do
        hlift (free r.2.start)
        return (r.1, {})
      else return r
    else do
      hlift (free r.2.start)
      hlift (free r.1)
      return (none, {})

/-- parser.c:376-383 -/
def hSkipDocumentEnds (H : HSrc ρ) : Nat → HP ρ Unit
  | 0 => fun _ _ => .error .fuel
  | fuel + 1 => do
    let token ← hPeek H
    if token.data = .plain .documentEnd then do
      hSkip
      hSkipDocumentEnds H fuel
    else return ()

/-- parser.c:387-390 -/
def HTokData.startsDocument : HTokData → Bool
  | .plain (.versionDirective _) | .tagDirective _ _ | .plain .documentStart | .plain .streamEnd => true
  | _ => false

/-- parser.c:387-402: an implicit document -/
def hImplicitDocument (H : HSrc ρ) (fuel : Nat) (token : HToken) : HP ρ HPEvent := do
  let _ ← hProcessDirectives H fuel false
  hPushState .documentEnd
  hSetState .blockNode
  return { data := .documentStart none {} true, start := token.start, stop := token.start }

/-- parser.c:406-430: an explicit document -/
def hExplicitDocument (H : HSrc ρ) (fuel : Nat) (start : Mark) : HP ρ HPEvent := do
  let r ← hProcessDirectives H fuel true
  let token ← orFree (hPeek H) (freeDirectives r.1 r.2)
  if token.data = .plain .documentStart then do
    orFree (hPushState .documentEnd) (freeDirectives r.1 r.2)
    hSetState .documentContent
    hSkip
    return { data := .documentStart r.1 r.2 false, start := start, stop := token.stop }
  else hstop (.parser none {} "did not find expected <document start>" token.start) (freeDirectives r.1 r.2)

/-- parser.c:384-437, after the extra document end indicators -/
def hDocumentStart (H : HSrc ρ) (fuel : Nat) (implicit : Bool) : HP ρ HPEvent := do
  let token ← hPeek H
  if implicit && !token.data.startsDocument then hImplicitDocument H fuel token
  else if token.data ≠ .plain .streamEnd then hExplicitDocument H fuel token.start
  else do
    hSetState .done
    hSkip
    return { data := .streamEnd, start := token.start, stop := token.stop }

/-- parser.c:360-450 `yaml_parser_parse_document_start` -/
def hParseDocumentStart (H : HSrc ρ) (fuel : Nat) (implicit : Bool) : HP ρ HPEvent :=
  if !implicit then do
    hSkipDocumentEnds H fuel
    hDocumentStart H fuel implicit
  else hDocumentStart H fuel implicit

/-- parser.c:552-556: the local variables of `yaml_parser_parse_node`; `tag` comes later. -/
structure HProps where
  anchor : Ptr := none
  handle : Ptr := none
  suffix : Ptr := none
  tagMark : Mark := {}
  start : Mark
  stop : Mark

/-- parser.c:748-752: the label `error`. -/
def freeProps (p : HProps) (tag : Ptr) : HM Unit := do
  free p.anchor
  free p.handle
  free p.suffix
  free tag

/-- parser.c:578-588: after an anchor -/
def hAfterAnchor (H : HSrc ρ) (l : HProps) : HP ρ (HProps × HToken) := do
  let token ← orFree (hPeek H) (freeProps l none)
  match token.data with
  | .tag handle suffix => do
    let l : HProps := { l with handle, suffix, tagMark := token.start, stop := token.stop }
    hSkip
    let token ← orFree (hPeek H) (freeProps l none)
    return (l, token)
  | _ => return (l, token)

/-- parser.c:597-606: after a tag -/
def hAfterTag (H : HSrc ρ) (l : HProps) : HP ρ (HProps × HToken) := do
  let token ← orFree (hPeek H) (freeProps l none)
  match token.data with
  | .anchor anchor => do
    let l : HProps := { l with anchor, stop := token.stop }
    hSkip
    let token ← orFree (hPeek H) (freeProps l none)
    return (l, token)
  | _ => return (l, token)

/-- parser.c:568-612: optional anchor and tag in any order. -/
def hParseProps (H : HSrc ρ) (token : HToken) : HP ρ (HProps × HToken) := do
  match token.data with
  | .anchor anchor => do
    hSkip
    hAfterAnchor H { anchor, start := token.start, stop := token.stop }
  | .tag handle suffix => do
    hSkip
    hAfterTag H { handle, suffix, tagMark := token.start, start := token.start, stop := token.stop }
  | _ => return ({ start := token.start, stop := token.start }, token)

/-- `*p` of a string -/
def hFirst (p : Ptr) : HM UInt8 := do
  match ← loadObj p with
  | .bytes (b :: _) => return b
  | _ => fun _ => .error .ub

/-- parser.c:622-638: the tag of a directive and a suffix. -/
def hJoinTag (l : HProps) (pfx : Ptr) : HP ρ Ptr := do
  let pb ← hlift (hString pfx)
  let sb ← hlift (hString l.suffix)
  let tag ← hlift (malloc (.bytes (pb ++ sb ++ [0])))
  if tag.isNone then hstop .memory (freeProps l none)
  else do
    hlift (free l.handle)
    hlift (free l.suffix)
    return tag

/-- The loop of parser.c:619-640. -/
def hLookupTag (l : HProps) : HP ρ (Option (Ptr × Ptr)) := fun p => do
  let hb ← hString l.handle
  let r ← hFindTag hb p.tags p.tags.top 0
  return (.ok r, p)

/-- parser.c:614-652: expand the tag handle. Afterwards the handle and the suffix are `NULL`. -/
def hResolveTag (l : HProps) : HP ρ Ptr := do
  if l.handle.isNone then return none
  else do
    let c ← hlift (hFirst l.handle)
    if c = 0 then do
      hlift (free l.handle)
      return l.suffix
    else do
      match ← hLookupTag l with
      | some d => hJoinTag l d.2
      | none => hstop (.parser (some "while parsing a node") l.start "found undefined tag handle" l.tagMark) (freeProps l none)

/-- parser.c:683-686, 694-697, 705-708, 716-719 -/
def hCheckLevel (H : HSrc ρ) (maxLevel : Int) (start mark : Mark) : HP ρ Unit := fun p h =>
  if (H.depth p.src : Int) < maxLevel then .ok ((.ok (), p), h)
  else .ok ((.error (.parser (some "while parsing") start "Maximum nesting level reached, set with yaml_set_max_nest_level())" mark), p), h)

/-- parser.c:654: `!tag || !*tag` -/
def hImplicit (tag : Ptr) : HM Bool := do
  if tag.isNone then return true else return (← hFirst tag) == 0

/-- parser.c:667: `tag && strcmp(tag, "!") == 0` -/
def hIsBang (tag : Ptr) : HM Bool := do
  if tag.isNone then return false else return (← hString tag) == [0x21]

/-- parser.c:682-692 and its copies: the start of a collection. -/
def hBegin (H : HSrc ρ) (maxLevel : Int) (l : HProps) (tag : Ptr) (token : HToken) (st : PState) (e : HEvent) : HP ρ HPEvent := do
  orFree (hCheckLevel H maxLevel l.start token.start) (freeProps l tag)
  hSetState st
  return { data := e, start := l.start, stop := token.stop }

/-- parser.c:662-680: a scalar -/
def hScalar (l : HProps) (tag value : Ptr) (length : Nat) (style : ScalarStyle) (token : HToken) : HP ρ HPEvent := do
  let bang ← hlift (hIsBang tag)
  hPopState
  hSkip
  let plainImplicit : Bool := (style == .plain && tag.isNone) || bang
  return { data := .scalar l.anchor tag value length plainImplicit (!plainImplicit && tag.isNone) style, start := l.start, stop := token.stop }

/-- parser.c:725-737: an empty scalar with properties -/
def hEmptyNode (l : HProps) (tag : Ptr) (implicit : Bool) : HP ρ HPEvent := do
  let value ← hlift (malloc (.bytes [0]))
  if value.isNone then hstop .memory (freeProps l tag)
  else do
    hPopState
    return { data := .scalar l.anchor tag value 0 implicit false .plain, start := l.start, stop := l.stop }

/-- parser.c:654-746: the content of a node after its properties. The handle and the suffix in `l` are `NULL`. -/
def hNodeContent (H : HSrc ρ) (maxLevel : Int) (block indentless : Bool) (l : HProps) (tag : Ptr) (token : HToken) : HP ρ HPEvent := do
  let implicit ← hlift (hImplicit tag)
  if indentless && decide (token.data = .plain .blockEntry) then do
    hSetState .indentlessSequenceEntry
    return { data := .sequenceStart l.anchor tag implicit .block, start := l.start, stop := token.stop }
  else
    match token.data with
    | .scalar value length style => hScalar l tag value length style token
    | .plain .flowSequenceStart => hBegin H maxLevel l tag token .flowSequenceFirstEntry (.sequenceStart l.anchor tag implicit .flow)
    | .plain .flowMappingStart => hBegin H maxLevel l tag token .flowMappingFirstKey (.mappingStart l.anchor tag implicit .flow)
    | d =>
      if block && decide (d = .plain .blockSequenceStart) then
        hBegin H maxLevel l tag token .blockSequenceFirstEntry (.sequenceStart l.anchor tag implicit .block)
      else if block && decide (d = .plain .blockMappingStart) then
        hBegin H maxLevel l tag token .blockMappingFirstKey (.mappingStart l.anchor tag implicit .block)
      else if l.anchor.isSome || tag.isSome then hEmptyNode l tag implicit
      else hstop (.parser (some (if block then "while parsing a block node" else "while parsing a flow node")) l.start
          "did not find expected node content" token.start) (freeProps l tag)

/-- parser.c:547-755 `yaml_parser_parse_node` -/
def hParseNode (H : HSrc ρ) (maxLevel : Int) (block indentless : Bool) : HP ρ HPEvent := do
  let token ← hPeek H
  match token.data with
  | .alias a => do
    hPopState
    hSkip
    return { data := .alias a, start := token.start, stop := token.stop }
  | _ => do
    let r ← hParseProps H token
    let tag ← hResolveTag r.1
    hNodeContent H maxLevel block indentless { r.1 with handle := none, suffix := none } tag r.2

/-- parser.c:458-480 `yaml_parser_parse_document_content` -/
def hParseDocumentContent (H : HSrc ρ) (maxLevel : Int) : HP ρ HPEvent := do
  let token ← hPeek H
  if token.data.startsDocument || decide (token.data = .plain .documentEnd) then do
    hPopState
    hEmptyScalar token.start
  else hParseNode H maxLevel true false

/-- parser.c:505-509: pop and free the directives, `n` of them. -/
def hClearDirs : Nat → HStk → HM HStk
  | 0, s => return s
  | n + 1, s => do
    let (d, s) ← (hPop s : HM ((Ptr × Ptr) × HStk))
    free d.1
    free d.2
    hClearDirs n s

def hClearTags : HP ρ Unit := fun p => do
  let tags ← hClearDirs p.tags.top p.tags
  return (.ok (), { p with tags })

/-- parser.c:488-518 `yaml_parser_parse_document_end` -/
def hParseDocumentEnd (H : HSrc ρ) : HP ρ HPEvent := do
  let token ← hPeek H
  if token.data = .plain .documentEnd then do
    hSkip
    hClearTags
    hSetState .documentStart
    return { data := .documentEnd false, start := token.start, stop := token.stop }
  else do
    hClearTags
    hSetState .documentStart
    return { data := .documentEnd true, start := token.start, stop := token.start }

/-- parser.c:766-771 and its copies -/
def hEnterCollection (H : HSrc ρ) (first : Bool) : HP ρ Unit :=
  if first then do
    let token ← hPeekUnchecked H
    hPushMark token.start
    hSkip
  else return ()

/-- parser.c:760-810 `yaml_parser_parse_block_sequence_entry` -/
def hParseBlockSequenceEntry (H : HSrc ρ) (maxLevel : Int) (first : Bool) : HP ρ HPEvent := do
  hEnterCollection H first
  let token ← hPeek H
  match token.data with
  | .plain .blockEntry => do
    hSkip
    let t2 ← hPeek H
    if t2.data ≠ .plain .blockEntry ∧ t2.data ≠ .plain .blockEnd then do
      hPushState .blockSequenceEntry
      hParseNode H maxLevel true false
    else do
      hSetState .blockSequenceEntry
      hEmptyScalar token.stop
  | .plain .blockEnd => do
    hPopState
    let _ ← hPopMark
    hSkip
    return { data := .sequenceEnd, start := token.start, stop := token.stop }
  | _ => do
    let m ← hPopMark
    hfail (.parser (some "while parsing a block collection") m "did not find expected '-' indicator" token.start)

/-- parser.c:818-855 `yaml_parser_parse_indentless_sequence_entry` -/
def hParseIndentlessSequenceEntry (H : HSrc ρ) (maxLevel : Int) : HP ρ HPEvent := do
  let token ← hPeek H
  if token.data = .plain .blockEntry then do
    hSkip
    let t2 ← hPeek H
    if t2.data ≠ .plain .blockEntry ∧ t2.data ≠ .plain .key ∧ t2.data ≠ .plain .value ∧ t2.data ≠ .plain .blockEnd then do
      hPushState .indentlessSequenceEntry
      hParseNode H maxLevel true false
    else do
      hSetState .indentlessSequenceEntry
      hEmptyScalar token.stop
  else do
    hPopState
    return { data := .sequenceEnd, start := token.start, stop := token.start }

/-- parser.c:868-920 `yaml_parser_parse_block_mapping_key` -/
def hParseBlockMappingKey (H : HSrc ρ) (maxLevel : Int) (first : Bool) : HP ρ HPEvent := do
  hEnterCollection H first
  let token ← hPeek H
  match token.data with
  | .plain .key => do
    hSkip
    let t2 ← hPeek H
    if t2.data ≠ .plain .key ∧ t2.data ≠ .plain .value ∧ t2.data ≠ .plain .blockEnd then do
      hPushState .blockMappingValue
      hParseNode H maxLevel true true
    else do
      hSetState .blockMappingValue
      hEmptyScalar token.stop
  | .plain .blockEnd => do
    hPopState
    let _ ← hPopMark
    hSkip
    return { data := .mappingEnd, start := token.start, stop := token.stop }
  | _ => do
    let m ← hPopMark
    hfail (.parser (some "while parsing a block mapping") m "did not find expected key" token.start)

/-- parser.c:933-967 `yaml_parser_parse_block_mapping_value` -/
def hParseBlockMappingValue (H : HSrc ρ) (maxLevel : Int) : HP ρ HPEvent := do
  let token ← hPeek H
  if token.data = .plain .value then do
    hSkip
    let t2 ← hPeek H
    if t2.data ≠ .plain .key ∧ t2.data ≠ .plain .value ∧ t2.data ≠ .plain .blockEnd then do
      hPushState .blockMappingKey
      hParseNode H maxLevel true true
    else do
      hSetState .blockMappingKey
      hEmptyScalar token.stop
  else do
    hSetState .blockMappingKey
    hEmptyScalar token.start

/-- parser.c:1031-1035 and 1198-1202: the end of a flow collection. -/
def hEndFlow (d : HEvent) (token : HToken) : HP ρ HPEvent := do
  hPopState
  let _ ← hPopMark
  hSkip
  return { data := d, start := token.start, stop := token.stop }

/-- parser.c:1000-1011 and 1157-1168 -/
def hFlowSeparator (H : HSrc ρ) (first : Bool) (token : HToken) (context problem : String) : HP ρ HToken := do
  if first then return token
  else if token.data = .plain .flowEntry then do
    hSkip
    hPeek H
  else do
    let m ← hPopMark
    hfail (.parser (some context) m problem token.start)

/-- parser.c:983-1036 `yaml_parser_parse_flow_sequence_entry` -/
def hParseFlowSequenceEntry (H : HSrc ρ) (maxLevel : Int) (first : Bool) : HP ρ HPEvent := do
  hEnterCollection H first
  let token ← hPeek H
  if token.data ≠ .plain .flowSequenceEnd then do
    let token ← hFlowSeparator H first token "while parsing a flow sequence" "did not find expected ',' or ']'"
    if token.data = .plain .key then do
      hSetState .flowSequenceEntryMappingKey
      hSkip
      return { data := .mappingStart none none true .flow, start := token.start, stop := token.stop }
    else if token.data ≠ .plain .flowSequenceEnd then do
      hPushState .flowSequenceEntry
      hParseNode H maxLevel false false
    else hEndFlow .sequenceEnd token
  else hEndFlow .sequenceEnd token

/-- parser.c:1044-1072 `yaml_parser_parse_flow_sequence_entry_mapping_key` -/
def hParseFlowSequenceEntryMappingKey (H : HSrc ρ) (maxLevel : Int) : HP ρ HPEvent := do
  let token ← hPeek H
  if token.data ≠ .plain .value ∧ token.data ≠ .plain .flowEntry ∧ token.data ≠ .plain .flowSequenceEnd then do
    hPushState .flowSequenceEntryMappingValue
    hParseNode H maxLevel false false
  else if token.data = .plain .flowSequenceEnd then do
    hSetState .flowSequenceEntryMappingValue
    hEmptyScalar token.start
  else do
    hSkip
    hSetState .flowSequenceEntryMappingValue
    hEmptyScalar token.stop

/-- parser.c:1079-1102 `yaml_parser_parse_flow_sequence_entry_mapping_value` -/
def hParseFlowSequenceEntryMappingValue (H : HSrc ρ) (maxLevel : Int) : HP ρ HPEvent := do
  let token ← hPeek H
  if token.data = .plain .value then do
    hSkip
    let t2 ← hPeek H
    if t2.data ≠ .plain .flowEntry ∧ t2.data ≠ .plain .flowSequenceEnd then do
      hPushState .flowSequenceEntryMappingEnd
      hParseNode H maxLevel false false
    else do
      hSetState .flowSequenceEntryMappingEnd
      hEmptyScalar t2.start
  else do
    hSetState .flowSequenceEntryMappingEnd
    hEmptyScalar token.start

/-- parser.c:1110-1123 `yaml_parser_parse_flow_sequence_entry_mapping_end` -/
def hParseFlowSequenceEntryMappingEnd (H : HSrc ρ) : HP ρ HPEvent := do
  let token ← hPeek H
  hSetState .flowSequenceEntry
  return { data := .mappingEnd, start := token.start, stop := token.start }

/-- parser.c:1139-1203 `yaml_parser_parse_flow_mapping_key` -/
def hParseFlowMappingKey (H : HSrc ρ) (maxLevel : Int) (first : Bool) : HP ρ HPEvent := do
  hEnterCollection H first
  let token ← hPeek H
  if token.data ≠ .plain .flowMappingEnd then do
    let token ← hFlowSeparator H first token "while parsing a flow mapping" "did not find expected ',' or '}'"
    if token.data = .plain .key then do
      hSkip
      let t2 ← hPeek H
      if t2.data ≠ .plain .value ∧ t2.data ≠ .plain .flowEntry ∧ t2.data ≠ .plain .flowMappingEnd then do
        hPushState .flowMappingValue
        hParseNode H maxLevel false false
      else do
        hSetState .flowMappingValue
        hEmptyScalar t2.start
    else if token.data ≠ .plain .flowMappingEnd then do
      hPushState .flowMappingEmptyValue
      hParseNode H maxLevel false false
    else hEndFlow .mappingEnd token
  else hEndFlow .mappingEnd token

/-- parser.c:1209-1240 `yaml_parser_parse_flow_mapping_value` -/
def hParseFlowMappingValue (H : HSrc ρ) (maxLevel : Int) (empty : Bool) : HP ρ HPEvent := do
  let token ← hPeek H
  if empty then do
    hSetState .flowMappingKey
    hEmptyScalar token.start
  else if token.data = .plain .value then do
    hSkip
    let t2 ← hPeek H
    if t2.data ≠ .plain .flowEntry ∧ t2.data ≠ .plain .flowMappingEnd then do
      hPushState .flowMappingKey
      hParseNode H maxLevel false false
    else do
      hSetState .flowMappingKey
      hEmptyScalar t2.start
  else do
    hSetState .flowMappingKey
    hEmptyScalar token.start

/-- parser.c:244-325 `yaml_parser_state_machine` -/
def hStateMachine (H : HSrc ρ) (maxLevel : Int) (fuel : Nat) : HP ρ HPEvent := fun p =>
  match p.state with
  | .streamStart => hParseStreamStart H p
  | .implicitDocumentStart => hParseDocumentStart H fuel true p
  | .documentStart => hParseDocumentStart H fuel false p
  | .documentContent => hParseDocumentContent H maxLevel p
  | .documentEnd => hParseDocumentEnd H p
  | .blockNode => hParseNode H maxLevel true false p
  | .blockSequenceFirstEntry => hParseBlockSequenceEntry H maxLevel true p
  | .blockSequenceEntry => hParseBlockSequenceEntry H maxLevel false p
  | .indentlessSequenceEntry => hParseIndentlessSequenceEntry H maxLevel p
  | .blockMappingFirstKey => hParseBlockMappingKey H maxLevel true p
  | .blockMappingKey => hParseBlockMappingKey H maxLevel false p
  | .blockMappingValue => hParseBlockMappingValue H maxLevel p
  | .flowSequenceFirstEntry => hParseFlowSequenceEntry H maxLevel true p
  | .flowSequenceEntry => hParseFlowSequenceEntry H maxLevel false p
  | .flowSequenceEntryMappingKey => hParseFlowSequenceEntryMappingKey H maxLevel p
  | .flowSequenceEntryMappingValue => hParseFlowSequenceEntryMappingValue H maxLevel p
  | .flowSequenceEntryMappingEnd => hParseFlowSequenceEntryMappingEnd H p
  | .flowMappingFirstKey => hParseFlowMappingKey H maxLevel true p
  | .flowMappingKey => hParseFlowMappingKey H maxLevel false p
  | .flowMappingValue => hParseFlowMappingValue H maxLevel false p
  | .flowMappingEmptyValue => hParseFlowMappingValue H maxLevel true p
  | .done => fun _ => .error .ub

/-- A parser object and the recorded error. -/
structure HPar (ρ : Type) where
  st : HPS ρ
  error : Option Fail := none

/-- Result of a call of `yaml_parser_parse`. -/
inductive HOut
  | event (e : HPEvent)
  | noEvent
  | failed
  deriving DecidableEq, Repr

/-- parser.c:180-197 `yaml_parser_parse` -/
def hParseCall (H : HSrc ρ) (maxLevel : Int) (fuel : Nat) (p : HPar ρ) : HM (HOut × HPar ρ) := do
  if p.st.ended || p.error.isSome || decide (p.st.state = .done) then return (.noEvent, p)
  else do
    match ← hStateMachine H maxLevel fuel p.st with
    | (.ok e, st) => return (.event e, { p with st })
    | (.error e, st) => return (.failed, { st, error := some e })

/-- `n` successive calls; the events belong to the caller. -/
def hParseN (H : HSrc ρ) (maxLevel : Int) (fuel : Nat) : Nat → HPar ρ → HM (List HOut × HPar ρ)
  | 0, p => return ([], p)
  | n + 1, p => do
    let (o, p) ← hParseCall H maxLevel fuel p
    let (os, p) ← hParseN H maxLevel fuel n p
    return (o :: os, p)

/-- api.c:226-228: delete the tokens that were not used. -/
def hDropTokens (p : HPS ρ) : HM Unit :=
  match p.avail with
  | some t => tokenDelete t.data
  | none => return ()

/-- api.c:219-243 `yaml_parser_delete` -/
def hParserDelete (H : HSrc ρ) (p : HPS ρ) : HM Unit := do
  hDropTokens p
  H.close p.src
  free p.states.start
  free p.marks.start
  let tags ← hClearDirs p.tags.top p.tags
  free tags.start

/-- api.c:200-212: the label `error` of `yaml_parser_initialize`. The queue is empty, so that `close` frees no tokens. -/
def hParserError (H : HSrc ρ) (p : HPS ρ) : HM (Bool × HPS ρ) := do
  H.close p.src
  free p.states.start
  free p.marks.start
  free p.tags.start
  return (false, p)

/-- api.c:191-196: the stacks of the parser -/
def hParserStacks (H : HSrc ρ) (p : HPS ρ) : HM (Bool × HPS ρ) := do
  let (ok, states) ← hInit PState
  let p := { p with states }
  if !ok then hParserError H p
  else do
    let (ok, marks) ← hInit Mark
    let p := { p with marks }
    if !ok then hParserError H p
    else do
      let (ok, tags) ← hInit (Ptr × Ptr)
      let p := { p with tags }
      if !ok then hParserError H p else return (true, p)

/-- api.c:176-213 `yaml_parser_initialize`. If `start` fails, it frees what it has allocated. -/
def hParserInit (H : HSrc ρ) : HM (Bool × HPS ρ) := do
  let (ok, src) ← H.start
  if !ok then return (false, { src }) else hParserStacks H { src }

/-! ### Any source of tokens -/

/-- The state of a source of tokens that are values, and the blocks of the reader and the scanner, whose contents are not represented. -/
structure MemSrc (σ : Type) where
  src : σ
  rawBuffer : Ptr := none
  buffer : Ptr := none
  tokens : Ptr := none
  indents : Ptr := none
  simpleKeys : Ptr := none

variable {σ : Type}

/-- A token gets its strings when it becomes the head of the queue. -/
def memNext (S : TokSrc σ) (x : MemSrc σ) : HM (Except Fail HToken × MemSrc σ) :=
  match S.next x.src with
  | .error e => return (.error e, x)
  | .ok (t, src) => do
    let d ← giveToken t.data
    return (.ok ⟨d, t.start, t.stop⟩, { x with src })

/-- api.c:222-231 without the tokens -/
def memClose (x : MemSrc σ) : HM Unit := do
  free x.rawBuffer
  free x.buffer
  free x.tokens
  free x.indents
  free x.simpleKeys

/-- api.c:200-209: the label `error` of `yaml_parser_initialize`, before there are stacks of the parser. -/
def memError (x : MemSrc σ) : HM (Bool × MemSrc σ) := do
  memClose x
  return (false, x)

/-- api.c:180-190 -/
def memStart (src : σ) : HM (Bool × MemSrc σ) := do
  let x : MemSrc σ := { src }
  let rawBuffer ← malloc (.bytes [0])
  let x := { x with rawBuffer }
  if rawBuffer.isNone then memError x
  else do
    let buffer ← malloc (.bytes [0])
    let x := { x with buffer }
    if buffer.isNone then memError x
    else do
      let tokens ← malloc (.bytes [0])
      let x := { x with tokens }
      if tokens.isNone then memError x
      else do
        let indents ← malloc (.bytes [0])
        let x := { x with indents }
        if indents.isNone then memError x
        else do
          let simpleKeys ← malloc (.bytes [0])
          let x := { x with simpleKeys }
          if simpleKeys.isNone then memError x else return (true, x)

/-- A source of tokens that is in state `src` at first. -/
def memSrc (S : TokSrc σ) (src : σ) : HSrc (MemSrc σ) where
  next := memNext S
  depth x := S.depth x.src
  start := memStart src
  close := memClose

end LibYaml
