import Verif.Model.Document
import Verif.Model.DumperHeap
import Verif.Model.ParserHeap

/-!
# The emitter on the heap (`src/emitter.c`, and the emitter object of `src/api.c`)

Here the event queue, the stacks of states and indents, and the tag directives live in the heap, every allocation may fail, and every write may
fail. The strings of an event are read from the heap. The fields `anchor_data`, `tag_data` and `scalar_data` point into strings of the event at the
head of the queue and into tag directives; a text that is written through them needs a live block.

The parts of the emitter that use no memory of their own are those of `Model/Emitter.lean`. The handler of the output is `W`: it gets the output
operations (see `WOp`) and may fail. What the writer stores in the two buffers is in `Model/Writer.lean`; here they are blocks without content.
-/

namespace LibYaml

/-- A pointer that is not owned: `NULL`, to a string literal, or into a block. -/
inductive TextRef
  | null
  | lit
  | heap (a : Nat)
  deriving DecidableEq, Repr

/-- A pointer into the block of a string. -/
def TextRef.into : Ptr → TextRef
  | none => .null
  | some a => .heap a

/-- yaml.h:1560-1790 `yaml_emitter_t`. In `val` the fields `states`, `events`, `indents` and `tags` are not used; its `anchor`, `tagHandle`,
`tagSuffix` and the value of the scalar are the texts behind the pointers `anchor` … `value`, with their lengths. -/
structure HEm (ω : Type) where
  val : Emitter := {}
  world : ω
  states : HStk := {}
  events : HQue := {}
  indents : HStk := {}
  tags : HStk := {}
  buffer : Ptr := none
  rawBuffer : Ptr := none
  anchor : TextRef := .null
  handle : TextRef := .null
  suffix : TextRef := .null
  value : TextRef := .null

/-- Why an emitter function returned 0: `YAML_EMITTER_ERROR` (or none, see `EFail`), `YAML_WRITER_ERROR`, `YAML_MEMORY_ERROR`. -/
inductive EErr
  | emitter (e : EFail)
  | writer
  | memory
  deriving DecidableEq, Repr

/-- Emitter functions: they may fail with an error, and leave an emitter object in any case. -/
def HE (ω α : Type) := HEm ω → HM (Except EErr α × HEm ω)

variable {ω α β : Type}

def HE.bind (m : HE ω α) (k : α → HE ω β) : HE ω β := fun p h =>
  match m p h with
  | .error e => .error e
  | .ok ((.error e, p), h) => .ok ((.error e, p), h)
  | .ok ((.ok a, p), h) => k a p h

instance : Monad (HE ω) where
  pure a := fun p h => .ok ((.ok a, p), h)
  bind := HE.bind

/-- The emitter object. -/
def eGet : HE ω (HEm ω) := fun p h => .ok ((.ok p, p), h)

/-- Assign fields. -/
def eMod (f : HEm ω → HEm ω) : HE ω Unit := fun p h => .ok ((.ok (), f p), h)

/-- emitter.c:268-275 `yaml_emitter_set_emitter_error` -/
def eFail (problem : String) : HE ω α := fun p h => .ok ((.error (.emitter (.emitter problem)), p), h)

/-- A program that does not touch the emitter object. -/
def eLift (m : HM α) : HE ω α := fun p h =>
  match m h with
  | .error e => .error e
  | .ok (a, h) => .ok ((.ok a, p), h)

/-- `if (b) { if (!m) return 0; }` -/
def eWhen (b : Bool) (m : HE ω Unit) : HE ω Unit := if b then m else pure ()

/-- Output handlers. -/
abbrev OutH (ω : Type) := WOp → ω → Bool × ω

/-- The environment in which memory never runs out. -/
def outEnv (W : OutH ω) : Env ω
  | .alloc, w => (true, w)
  | .out op, w => W op w

/-- A function of `Model/Emitter.lean`. -/
def eRun (W : OutH ω) (m : EM α) : HE ω α := fun p h =>
  match execOps (outEnv W) (m p.val).ops p.world with
  | (some s, w) => .ok ((.error .writer, { p with val := s, world := w }), h)
  | (none, w) =>
    match (m p.val).val with
    | .ok a => .ok ((.ok a, { p with val := (m p.val).st, world := w }), h)
    | .error .ub => .error .ub
    | .error e => .ok ((.error (.emitter e), { p with val := (m p.val).st, world := w }), h)

/-! ### Strings -/

/-- The text of bytes. The emitter moves through a string by the widths that the leading octets announce (yaml_private.h `WIDTH`, `MOVE`);
overlong forms are represented as in `octetsChar`. The number bounds the length. -/
def decodeOctets : Nat → List UInt8 → Option Text
  | _, [] => some []
  | 0, _ :: _ => none
  | n + 1, b :: r =>
    let w := octetWidth b.toNat - 1
    if octetWidth b.toNat = 0 ∨ r.length < w then none
    else if (r.take w).all fun x => decide (0x80 ≤ x.toNat ∧ x.toNat < 0xC0) then
      (decodeOctets n (r.drop w)).map (octetsChar (b.toNat :: (r.take w).map UInt8.toNat) :: ·)
    else none

/-- The text of bytes. Bytes that are not octets of characters are outside the model; `yaml_check_utf8` and the scanner keep them out of
events. -/
def hDecode (b : List UInt8) : HM Text :=
  match decodeOctets b.length b with
  | some t => pure t
  | none => fun _ => .error .ub

/-- A C string -/
def hText (p : Ptr) : HM Text := do hDecode (← hString p)

/-- A string with its length -/
def hTextN (p : Ptr) (n : Nat) : HM Text := do
  match ← loadObj p with
  | .bytes b => hDecode (← bytesOf b n)
  | _ => fun _ => .error .ub

/-- Reading through a pointer. -/
def hTouch : TextRef → HM Unit
  | .null => fun _ => .error .ub
  | .lit => return ()
  | .heap a => do
    match ← loadObj (some a) with
    | .bytes _ => return ()
    | _ => fun _ => .error .ub

/-! ### Stacks -/

/-- `PUSH(emitter, emitter->states, state)` -/
def ePushState (st : EState) : HE ω Unit := fun p => do
  let (ok, states) ← hPush st p.states
  if ok then return (.ok (), { p with states }) else return (.error .memory, { p with states })

/-- `emitter->state = POP(emitter, emitter->states)` -/
def ePopState : HE ω Unit := fun p => do
  let (st, states) ← (hPop p.states : HM (EState × HStk))
  return (.ok (), { p with val := { p.val with state := st }, states })

/-- `emitter->indent = POP(emitter, emitter->indents)` -/
def ePopIndent : HE ω Unit := fun p => do
  let (i, indents) ← (hPop p.indents : HM (Int × HStk))
  return (.ok (), { p with val := { p.val with indent := i }, indents })

/-- emitter.c:403-418 `yaml_emitter_increase_indent` -/
def eIncreaseIndent (flow indentless : Bool) : HE ω Unit := fun p => do
  let (ok, indents) ← hPush p.val.indent p.indents
  if ok then return (.ok (), { p with val := { p.val with indent := p.val.deeper flow indentless }, indents })
  else return (.error .memory, { p with indents })

/-- `emitter->state = x` -/
def eSetState (x : EState) : HE ω Unit := eMod fun p => { p with val := { p.val with state := x } }

/-! ### Tag directives -/

/-- emitter.c:380-397: push copies of the strings. -/
def eCopyTag (handle pfx : List UInt8) : HE ω Unit := fun p => do
  let c ← malloc (.bytes (handle ++ [0]))
  let d ← malloc (.bytes (pfx ++ [0]))
  if c.isNone || d.isNone then do
    free c
    free d
    return (.error .memory, p)
  else do
    let (ok, tags) ← hPush (c, d) p.tags
    if ok then return (.ok (), { p with tags })
    else do
      free c
      free d
      return (.error .memory, { p with tags })

/-- emitter.c:364-397 `yaml_emitter_append_tag_directive` -/
def eAppendTag (handle pfx : List UInt8) (allowDuplicates : Bool) : HE ω Unit := fun p => do
  match ← hFindTag handle p.tags p.tags.top 0 with
  | some _ => if allowDuplicates then return (.ok (), p) else eFail "duplicate %TAG directive" p
  | none => eCopyTag handle pfx p

/-- emitter.c:571-578: the tag directives of the event from `i` on; `n` of them are left. -/
def eAppendTags (W : OutH ω) (s : HStk) : Nat → Nat → HE ω Unit
  | 0, _ => pure ()
  | n + 1, i => do
    let d : Ptr × Ptr ← eLift (hGet i s)
    let handle ← eLift (hText d.1)
    let pfx ← eLift (hText d.2)
    eRun W (analyzeTagDirective ⟨handle, pfx⟩)
    let hb ← eLift (hString d.1)
    let pb ← eLift (hString d.2)
    eAppendTag hb pb false
    eAppendTags W s n (i + 1)

/-- emitter.c:580-584, with the strings of the array in 557-561. -/
def eAddDefaults : List TagDir → HE ω Unit
  | [] => pure ()
  | d :: ds => do
    eAppendTag (Spec.textBytes d.handle) (Spec.textBytes d.pfx) true
    eAddDefaults ds

/-- emitter.c:622-635: the `%TAG` directives of the event from `i` on; `n` of them are left. -/
def eWriteTags (W : OutH ω) (s : HStk) : Nat → Nat → HE ω Unit
  | 0, _ => pure ()
  | n + 1, i => do
    eRun W (writeIndicator (lit ['%', 'T', 'A', 'G']) true false false)
    let d : Ptr × Ptr ← eLift (hGet i s)
    let handle ← eLift (hText d.1)
    eRun W (writeTagHandle handle)
    let pfx ← eLift (hText d.2)
    eRun W (writeTagContent pfx true)
    eRun W writeIndent
    eWriteTags W s n (i + 1)

/-- emitter.c:726-731, api.c:406-410: pop and free all tag directives. -/
def hDropTags : Nat → HStk → HM HStk
  | 0, s => return s
  | n + 1, s => do
    let (d, s) ← (hPop s : HM ((Ptr × Ptr) × HStk))
    free d.1
    free d.2
    hDropTags n s

/-! ### Analysis -/

/-- emitter.c:1422-1452 `yaml_emitter_analyze_anchor` -/
def eAnalyzeAnchor (W : OutH ω) (a : Ptr) (isAlias : Bool) : HE ω Unit := do
  let t ← eLift (hText a)
  eRun W (analyzeAnchor t isAlias)
  eMod fun p => { p with anchor := .into a }

/-- emitter.c:1474-1480: the first directive from `i` on that applies to the tag; `n` directives are left. -/
def hFitting (tag : Text) (s : HStk) : Nat → Nat → HM (Option (Ptr × Ptr))
  | 0, _ => return none
  | n + 1, i => do
    let d : Ptr × Ptr ← hGet i s
    let pfx ← hText d.2
    if TagDir.fits ⟨[], pfx⟩ tag then return some d else hFitting tag s n (i + 1)

/-- emitter.c:1481-1488 -/
def eUseTag (t : Ptr) (tag : Text) : Option (Ptr × Ptr) → HE ω Unit
  | some d => do
    let handle ← eLift (hText d.1)
    let pfx ← eLift (hText d.2)
    eMod fun p => { p with val := { p.val with tagHandle := some handle, tagSuffix := some (tag.drop pfx.length) }, handle := .into d.1, suffix := .into t }
  | none => eMod fun p => { p with val := { p.val with tagSuffix := some tag }, suffix := .into t }

/-- emitter.c:1458-1495 `yaml_emitter_analyze_tag` -/
def eAnalyzeTag (t : Ptr) : HE ω Unit := do
  let tag ← eLift (hText t)
  if tag.isEmpty then eFail "tag value must not be empty"
  else do
    let p ← eGet
    let d ← eLift (hFitting tag p.tags p.tags.top 0)
    eUseTag t tag d

/-- The anchor and the tag of a node (emitter.c:1723-1733, 1740-1750, 1754-1764); `useTag`: the tag is written. -/
def eAnalyzeProps (W : OutH ω) (a t : Ptr) (useTag : Bool) : HE ω Unit := do
  eWhen a.isSome (eAnalyzeAnchor W a false)
  eWhen useTag (eWhen t.isSome (eAnalyzeTag t))

/-- emitter.c:1501-1698 `yaml_emitter_analyze_scalar` -/
def eAnalyzeScalar (W : OutH ω) (v : Ptr) (n : Nat) : HE ω Unit := do
  let t ← eLift (hTextN v n)
  eRun W (analyzeScalar t)
  eMod fun p => { p with value := .into v }

/-- emitter.c:1704-1711 -/
def eReset : HE ω Unit :=
  eMod fun p => { p with
    val := { p.val with anchor := none, tagHandle := none, tagSuffix := none, scalar := { p.val.scalar with value := [] } }
    anchor := .null, handle := .null, suffix := .null, value := .null }

/-- emitter.c:1701-1770 `yaml_emitter_analyze_event` -/
def eAnalyzeEvent (W : OutH ω) (e : HEvent) : HE ω Unit := do
  eReset
  let canonical := (← eGet).val.canonical
  match e with
  | .alias a => eAnalyzeAnchor W a true
  | .scalar a t v n p q _ => do
    eAnalyzeProps W a t (canonical || (!p && !q))
    eAnalyzeScalar W v n
  | .sequenceStart a t i _ => eAnalyzeProps W a t (canonical || !i)
  | .mappingStart a t i _ => eAnalyzeProps W a t (canonical || !i)
  | _ => pure ()

/-! ### Checks -/

/-- emitter.c:1119-1127, 1133-1141: `yaml_emitter_check_empty_sequence`, `yaml_emitter_check_empty_mapping` -/
def eEmptyColl (test : HEvent → HEvent → Bool) : HE ω Bool := do
  let p ← eGet
  if p.events.tail - p.events.head < 2 then return false
  else do
    let a ← eLift (qAt p.events 0 : HM HEvent)
    let b ← eLift (qAt p.events 1 : HM HEvent)
    return test a b

def opensSequence : HEvent → HEvent → Bool
  | .sequenceStart .., .sequenceEnd => true
  | _, _ => false

def opensMapping : HEvent → HEvent → Bool
  | .mappingStart .., .mappingEnd => true
  | _, _ => false

/-- `anchor_length + handle_length + suffix_length` -/
def Emitter.propsLen (s : Emitter) : Nat := optLen s.anchor + optLen s.tagHandle + optLen s.tagSuffix

/-- emitter.c:1147-1192 `yaml_emitter_check_simple_key` -/
def eSimpleKey : HE ω Bool := do
  let p ← eGet
  match ← eLift (qAt p.events 0 : HM HEvent) with
  | .alias _ => return decide (optLen p.val.anchor ≤ 128)
  | .scalar .. => return !p.val.scalar.multiline && decide (p.val.propsLen + byteLen p.val.scalar.value ≤ 128)
  | .sequenceStart .. => return (← eEmptyColl opensSequence) && decide (p.val.propsLen ≤ 128)
  | .mappingStart .. => return (← eEmptyColl opensMapping) && decide (p.val.propsLen ≤ 128)
  | _ => return false

/-- emitter.c:1198-1254 `yaml_emitter_select_scalar_style`; lines 1246-1250 let the handle point to a literal. -/
def eSelectStyle (W : OutH ω) (plainImplicit quotedImplicit : Bool) (style : ScalarStyle) : HE ω Unit := do
  let noTag := (← eGet).val.tagHandle.isNone
  eRun W (selectScalarStyle plainImplicit quotedImplicit style)
  eMod fun p => if noTag && p.val.tagHandle.isSome then { p with handle := .lit } else p

/-! ### Output -/

/-- A text is read through its pointer, if there is one. -/
def hTouchSome : Option Text → TextRef → HM Unit
  | none, _ => pure ()
  | some _, r => hTouch r

/-- emitter.c:1260-1272 `yaml_emitter_process_anchor` -/
def eProcessAnchor (W : OutH ω) : HE ω Unit := do
  let p ← eGet
  eLift (hTouchSome p.val.anchor p.anchor)
  eRun W processAnchor

/-- emitter.c:1278-1307 `yaml_emitter_process_tag` -/
def eProcessTag (W : OutH ω) : HE ω Unit := do
  let p ← eGet
  eLift (hTouchSome p.val.tagHandle p.handle)
  eLift (hTouchSome p.val.tagSuffix p.suffix)
  eRun W processTag

/-- emitter.c:1313-1346 `yaml_emitter_process_scalar` -/
def eProcessScalar (W : OutH ω) : HE ω Unit := do
  let p ← eGet
  eLift (hTouch p.value)
  eRun W processScalar

/-! ### States -/

/-- emitter.c:1022-1032 `yaml_emitter_emit_alias` -/
def eAlias (W : OutH ω) : HE ω Unit := do
  eProcessAnchor W
  eWhen (← eGet).val.simpleKeyContext (eRun W (putC (c! ' ')))
  ePopState

/-- emitter.c:1038-1055 `yaml_emitter_emit_scalar` -/
def eScalar (W : OutH ω) (plainImplicit quotedImplicit : Bool) (style : ScalarStyle) : HE ω Unit := do
  eSelectStyle W plainImplicit quotedImplicit style
  eProcessAnchor W
  eProcessTag W
  eIncreaseIndent true false
  eProcessScalar W
  ePopIndent
  ePopState

/-- emitter.c:1061-1079 `yaml_emitter_emit_sequence_start` -/
def eSequenceStart (W : OutH ω) (style : CollStyle) : HE ω Unit := do
  eProcessAnchor W
  eProcessTag W
  let p ← eGet
  let empty ← eEmptyColl opensSequence
  eSetState (if p.val.flowLevel ≠ 0 ∨ p.val.canonical = true ∨ style = .flow ∨ empty = true then .flowSequenceFirstItem
    else .blockSequenceFirstItem)

/-- emitter.c:1085-1103 `yaml_emitter_emit_mapping_start` -/
def eMappingStart (W : OutH ω) (style : CollStyle) : HE ω Unit := do
  eProcessAnchor W
  eProcessTag W
  let p ← eGet
  let empty ← eEmptyColl opensMapping
  eSetState (if p.val.flowLevel ≠ 0 ∨ p.val.canonical = true ∨ style = .flow ∨ empty = true then .flowMappingFirstKey
    else .blockMappingFirstKey)

/-- emitter.c:987-1016 `yaml_emitter_emit_node` -/
def eNode (W : OutH ω) (e : HEvent) (root sequence mapping simpleKey : Bool) : HE ω Unit := do
  eMod fun p => { p with val := { p.val with
    rootContext := root, sequenceContext := sequence, mappingContext := mapping, simpleKeyContext := simpleKey } }
  match e with
  | .alias _ => eAlias W
  | .scalar _ _ _ _ p q style => eScalar W p q style
  | .sequenceStart _ _ _ style => eSequenceStart W style
  | .mappingStart _ _ _ style => eMappingStart W style
  | _ => eFail "expected SCALAR, SEQUENCE-START, MAPPING-START, or ALIAS"

/-- emitter.c:495-546 `yaml_emitter_emit_stream_start` -/
def eStreamStart (W : OutH ω) (e : HEvent) : HE ω Unit := do
  eRun W (modE fun s => { s with openEnded := 0 })
  match e with
  | .streamStart enc => eRun W (do
    modE fun s => { s.normalize enc with indent := -1, line := 0, column := 0, whitespace := true, indention := true }
    whenE ((← getE).encoding != some .utf8) writeBom
    setStateE .firstDocumentStart)
  | _ => eFail "expected STREAM-START"

/-- The version directive, if there is one. -/
def hVersion : Ptr → HM (Option Version)
  | none => return none
  | some a => do
    match ← loadObj (some a) with
    | .version v => return some v
    | _ => fun _ => .error .ub

/-- emitter.c:555-652: a document start. -/
def eDocumentStartEvent (W : OutH ω) (version : Ptr) (tags : HStk) (implicit first : Bool) : HE ω Unit := do
  let v ← eLift (hVersion version)
  eRun W (someE v analyzeVersion)
  eAppendTags W tags tags.top 0
  eAddDefaults emitterDefaultTags
  eWhen ((version.isSome || decide (tags.top ≠ 0)) && (← eGet).val.openEnded != 0)
    (eRun W (do writeIndicator dots true false false; writeIndent))
  eRun W (modE fun s => { s with openEnded := 0 })
  eRun W (someE v writeVersion)
  eWriteTags W tags tags.top 0
  eWhen (!(implicit && first && !(← eGet).val.canonical && version.isNone && decide (tags.top = 0)))
    (eRun W (do
      writeIndent
      writeIndicator (lit ['-', '-', '-']) true false false
      whenE (← getE).canonical writeIndent))
  eSetState .documentContent
  eRun W (modE fun s => { s with openEnded := 0 })

/-- emitter.c:552-685 `yaml_emitter_emit_document_start` -/
def eDocumentStart (W : OutH ω) (e : HEvent) (first : Bool) : HE ω Unit :=
  match e with
  | .documentStart version tags implicit => eDocumentStartEvent W version tags implicit first
  | .streamEnd => eRun W emitStreamEndEvent
  | _ => eFail "expected DOCUMENT-START or STREAM-END"

/-- emitter.c:691-699 `yaml_emitter_emit_document_content` -/
def eDocumentContent (W : OutH ω) (e : HEvent) : HE ω Unit := do
  ePushState .documentEnd
  eNode W e true false false false

/-- emitter.c:724-731 -/
def eEndDocument : HE ω Unit := fun p => do
  let tags ← hDropTags p.tags.top p.tags
  return (.ok (), { p with val := { p.val with state := .documentStart }, tags })

/-- emitter.c:705-739 `yaml_emitter_emit_document_end` -/
def eDocumentEnd (W : OutH ω) (e : HEvent) : HE ω Unit :=
  match e with
  | .documentEnd implicit => do
    eRun W writeIndent
    eRun W (if !implicit then do
        writeIndicator dots true false false
        modE fun s => { s with openEnded := 0 }
        writeIndent
      else modE fun s => { s with openEnded := if s.openEnded == 0 then 1 else s.openEnded })
    eRun W (opE (.out .flush))
    eEndDocument
  | _ => eFail "expected DOCUMENT-END"

/-- The beginning of a flow collection (emitter.c:750-757, 799-806). -/
def eOpenFlow (W : OutH ω) (c : Nat) : HE ω Unit := do
  eRun W (writeIndicator [c] true true false)
  eIncreaseIndent true false
  eRun W (modE fun s => { s with flowLevel := s.flowLevel + 1 })

/-- The end of a flow collection (emitter.c:761-773, 810-822). -/
def eCloseFlow (W : OutH ω) (c : Nat) (first : Bool) : HE ω Unit := do
  eRun W (modE fun s => { s with flowLevel := s.flowLevel - 1 })
  ePopIndent
  eWhen ((← eGet).val.canonical && !first)
    (eRun W (do writeIndicator [c! ','] false false false; writeIndent))
  eRun W (writeIndicator [c] false false false)
  ePopState

/-- emitter.c:746-789 `yaml_emitter_emit_flow_sequence_item` -/
def eFlowSequenceItem (W : OutH ω) (e : HEvent) (first : Bool) : HE ω Unit := do
  eWhen first (eOpenFlow W (c! '['))
  if e = .sequenceEnd then eCloseFlow W (c! ']') first
  else do
    eWhen (!first) (eRun W (writeIndicator [c! ','] false false false))
    eWhen (← eGet).val.tooWide (eRun W writeIndent)
    ePushState .flowSequenceItem
    eNode W e false true false false

/-- emitter.c:832-851: a key of a flow mapping -/
def eFlowKey (W : OutH ω) (e : HEvent) (simple : Bool) : HE ω Unit := do
  if simple then do
    ePushState .flowMappingSimpleValue
    eNode W e false false true true
  else do
    eRun W (writeIndicator [c! '?'] true false false)
    ePushState .flowMappingValue
    eNode W e false false true false

/-- emitter.c:795-852 `yaml_emitter_emit_flow_mapping_key` -/
def eFlowMappingKey (W : OutH ω) (e : HEvent) (first : Bool) : HE ω Unit := do
  eWhen first (eOpenFlow W (c! '{'))
  if e = .mappingEnd then eCloseFlow W (c! '}') first
  else do
    eWhen (!first) (eRun W (writeIndicator [c! ','] false false false))
    eWhen (← eGet).val.tooWide (eRun W writeIndent)
    if (← eGet).val.canonical then eFlowKey W e false
    else do
      let simple ← eSimpleKey
      eFlowKey W e simple

/-- emitter.c:858-877 `yaml_emitter_emit_flow_mapping_value` -/
def eFlowMappingValue (W : OutH ω) (e : HEvent) (simple : Bool) : HE ω Unit := do
  eRun W (if simple then writeIndicator [c! ':'] false false false
    else do
      whenE (← getE).tooWide writeIndent
      writeIndicator [c! ':'] true false false)
  ePushState .flowMappingKey
  eNode W e false false true false

/-- emitter.c:883-911 `yaml_emitter_emit_block_sequence_item` -/
def eBlockSequenceItem (W : OutH ω) (e : HEvent) (first : Bool) : HE ω Unit := do
  eWhen first (do
    let p ← eGet
    eIncreaseIndent false (p.val.mappingContext && !p.val.indention))
  if e = .sequenceEnd then do
    ePopIndent
    ePopState
  else do
    eRun W writeIndent
    eRun W (writeIndicator [c! '-'] true false true)
    ePushState .blockSequenceItem
    eNode W e false true false false

/-- emitter.c:938-955: a key of a block mapping -/
def eBlockKey (W : OutH ω) (e : HEvent) (simple : Bool) : HE ω Unit := do
  if simple then do
    ePushState .blockMappingSimpleValue
    eNode W e false false true true
  else do
    eRun W (writeIndicator [c! '?'] true false true)
    ePushState .blockMappingValue
    eNode W e false false true false

/-- emitter.c:917-956 `yaml_emitter_emit_block_mapping_key` -/
def eBlockMappingKey (W : OutH ω) (e : HEvent) (first : Bool) : HE ω Unit := do
  eWhen first (eIncreaseIndent false false)
  if e = .mappingEnd then do
    ePopIndent
    ePopState
  else do
    eRun W writeIndent
    let simple ← eSimpleKey
    eBlockKey W e simple

/-- emitter.c:962-981 `yaml_emitter_emit_block_mapping_value` -/
def eBlockMappingValue (W : OutH ω) (e : HEvent) (simple : Bool) : HE ω Unit := do
  eRun W (if simple then writeIndicator [c! ':'] false false false
    else do
      writeIndent
      writeIndicator [c! ':'] true false true)
  ePushState .blockMappingKey
  eNode W e false false true false

/-- emitter.c:424-489 `yaml_emitter_state_machine` -/
def eStep (W : OutH ω) (e : HEvent) : HE ω Unit := do
  match (← eGet).val.state with
  | .streamStart => eStreamStart W e
  | .firstDocumentStart => eDocumentStart W e true
  | .documentStart => eDocumentStart W e false
  | .documentContent => eDocumentContent W e
  | .documentEnd => eDocumentEnd W e
  | .flowSequenceFirstItem => eFlowSequenceItem W e true
  | .flowSequenceItem => eFlowSequenceItem W e false
  | .flowMappingFirstKey => eFlowMappingKey W e true
  | .flowMappingKey => eFlowMappingKey W e false
  | .flowMappingSimpleValue => eFlowMappingValue W e true
  | .flowMappingValue => eFlowMappingValue W e false
  | .blockSequenceFirstItem => eBlockSequenceItem W e true
  | .blockSequenceItem => eBlockSequenceItem W e false
  | .blockMappingFirstKey => eBlockMappingKey W e true
  | .blockMappingKey => eBlockMappingKey W e false
  | .blockMappingSimpleValue => eBlockMappingValue W e true
  | .blockMappingValue => eBlockMappingValue W e false
  | .ended => eFail "expected nothing after STREAM-END"

/-! ### The calls -/

/-- emitter.c:338-353: the change of the nesting level. -/
def hLevelChange : HEvent → Int
  | .streamStart _ | .documentStart .. | .sequenceStart .. | .mappingStart .. => 1
  | .streamEnd | .documentEnd _ | .sequenceEnd | .mappingEnd => -1
  | _ => 0

/-- emitter.c:336-357: does the nesting level come back to 0? `n` events from `i` on are left. -/
def hLevelLoop (q : HQue) : Nat → Nat → Int → HM Bool
  | 0, _, _ => return true
  | n + 1, i, level => do
    let e : HEvent ← qAt q i
    if level + hLevelChange e = 0 then return false else hLevelLoop q n (i + 1) (level + hLevelChange e)

/-- emitter.c:319-331: the number of events to wait for. -/
def hAccumulate : HEvent → Option Nat
  | .documentStart .. => some 1
  | .sequenceStart .. => some 2
  | .mappingStart .. => some 3
  | _ => none

/-- emitter.c:309-358 `yaml_emitter_need_more_events` -/
def hNeedMore (q : HQue) : HM Bool := do
  if q.head = q.tail then return true
  else do
    match hAccumulate (← (qAt q 0 : HM HEvent)) with
    | none => return false
    | some n => if q.tail - q.head > n then return false else hLevelLoop q (q.tail - q.head) 0 0

/-- emitter.c:294 -/
def eDequeue : HE ω Unit := fun p => do
  let (e, events) ← (qPop p.events : HM (HEvent × HQue))
  eventDelete e
  return (.ok (), { p with events })

/-- emitter.c:288-295: the loop over the queue. The number is the length of the queue. -/
def eLoop (W : OutH ω) : Nat → HE ω Unit
  | 0 => pure ()
  | n + 1 => do
    let p ← eGet
    if ← eLift (hNeedMore p.events) then pure ()
    else do
      let e ← eLift (qAt p.events 0 : HM HEvent)
      eAnalyzeEvent W e
      eStep W e
      eDequeue
      eLoop W n

/-- emitter.c:283-286 -/
def eEnqueue (e : HEvent) : HE ω Unit := fun p => do
  let (ok, events) ← qPush e p.events
  if ok then return (.ok (), { p with events })
  else do
    eventDelete e
    return (.error .memory, { p with events })

/-- emitter.c:281-299 `yaml_emitter_emit` -/
def eEmit (W : OutH ω) (e : HEvent) : HE ω Unit := do
  eEnqueue e
  let p ← eGet
  eLoop W (p.events.tail - p.events.head)

/-- api.c:373-382: the label `error`. -/
def emFree (buffer rawBuffer : Ptr) (states : HStk) (events : HQue) (indents tags : HStk) : HM Unit := do
  free buffer
  free rawBuffer
  free states.start
  free events.start
  free indents.start
  free tags.start

/-- api.c:354-385 `yaml_emitter_initialize`; `none` is the return value 0. -/
def emitterInit (w : ω) : HM (Option (HEm ω)) := do
  let buffer ← malloc (.bytes [])
  if buffer.isNone then do
    emFree none none {} {} {} {}
    return none
  else do
    let rawBuffer ← malloc (.bytes [])
    if rawBuffer.isNone then do
      emFree buffer none {} {} {} {}
      return none
    else do
      let (ok, states) ← hInit EState
      if !ok then do
        emFree buffer rawBuffer states {} {} {}
        return none
      else do
        let (ok, events) ← qInit HEvent
        if !ok then do
          emFree buffer rawBuffer states events {} {}
          return none
        else do
          let (ok, indents) ← hInit Int
          if !ok then do
            emFree buffer rawBuffer states events indents {}
            return none
          else do
            let (ok, tags) ← hInit (Ptr × Ptr)
            if !ok then do
              emFree buffer rawBuffer states events indents tags
              return none
            else return some { world := w, states, events, indents, tags, buffer, rawBuffer }

/-- api.c:399-401: delete the events in the queue; `n` of them are left. -/
def hDropEvents : Nat → HQue → HM Unit
  | 0, _ => return ()
  | n + 1, q => do
    let (e, q) ← (qPop q : HM (HEvent × HQue))
    eventDelete e
    hDropEvents n q

/-- api.c:391-414 `yaml_emitter_delete`; `anchors` is a field of the dumper. -/
def emitterDelete (p : HEm ω) (anchors : Ptr) : HM Unit := do
  free p.buffer
  free p.rawBuffer
  free p.states.start
  hDropEvents (p.events.tail - p.events.head) p.events
  free p.events.start
  free p.indents.start
  let tags ← hDropTags p.tags.top p.tags
  free tags.start
  free anchors

end LibYaml
