import Verif.Model.DocumentHeap
import Verif.Spec.Octets
import Verif.Model.Loader

/-!
# The loader on the heap (`src/loader.c`)

The parser is represented by the outcomes of the calls of `yaml_parser_parse`: an event, whose strings then belong to the caller, or
a failure (`none`). Its own allocations are part of this outcome. Marks are omitted.
-/

namespace LibYaml

/-- A block that comes with an event. -/
def give (o : Obj) : HM Ptr := fun h => .ok (some h.next, { (h.set h.next (some o)) with next := h.next + 1 })

/-- A string of an event. -/
def giveText (t : Text) : HM Ptr := give (.bytes (Spec.textBytes t ++ [0]))

/-- A string that may be absent. -/
def giveOption : Option Text → HM Ptr
  | none => return none
  | some t => giveText t

def giveDirs : List TagDir → HM (List (Ptr × Ptr))
  | [] => return []
  | d :: ds => do
    let p ← giveText d.handle
    let q ← giveText d.pfx
    return (p, q) :: (← giveDirs ds)

/-- The tag directives of an event: `NULL` if there are none (parser.c:1350-1353). -/
def giveTags (ds : List TagDir) : HM HStk := do
  if ds.isEmpty then return {}
  else do
    let cells ← giveDirs ds
    let a ← give (Cell.wrap (cells.map some))
    return { start := a, top := cells.length }

def giveVersion : Option Version → HM Ptr
  | none => return none
  | some v => give (.version v)

/-- An event as `yaml_parser_parse` returns it. -/
def giveEvent : EvData → HM HEvent
  | .streamStart e => return .streamStart e
  | .streamEnd => return .streamEnd
  | .documentStart v ts i => do return .documentStart (← giveVersion v) (← giveTags ts) i
  | .documentEnd i => return .documentEnd i
  | .alias a => do return .alias (← giveText a)
  | .scalar a t v p q s => do
    let a ← giveOption a
    let t ← giveOption t
    let x ← giveText v
    return .scalar a t x (Spec.textBytes v).length p q s
  | .sequenceStart a t i s => do
    let a ← giveOption a
    let t ← giveOption t
    return .sequenceStart a t i s
  | .sequenceEnd => return .sequenceEnd
  | .mappingStart a t i s => do
    let a ← giveOption a
    let t ← giveOption t
    return .mappingStart a t i s
  | .mappingEnd => return .mappingEnd

/-- The outcomes of the calls of `yaml_parser_parse` to come. Behind the last one every call fails. -/
abbrev Outcomes := List (Option Event)

/-- `yaml_parser_parse` -/
def hParse : Outcomes → HM (Option HEvent × Outcomes)
  | [] => return (none, [])
  | none :: es => return (none, es)
  | some e :: es => do return (some (← giveEvent e.data), es)

/-- The objects of `yaml_parser_load`: `document`, `parser->aliases`, `ctx`. -/
structure HLoad where
  doc : HDoc := {}
  aliases : HStk := {}
  ctx : HStk := {}
  deriving DecidableEq, Repr

/-- A C string in the heap: the bytes before the NUL. -/
def hString (p : Ptr) : HM (List UInt8) := do
  match ← loadObj p with
  | .bytes b => bytesOf b (← strlen b)
  | _ => fun _ => .error .ub

/-- `strcmp(p, q) == 0` -/
def hSame (p q : Ptr) : HM Bool := do return (← hString p) == (← hString q)

/-- The loops over `parser->aliases` (loader.c:272-280, 355-361): the index of the first entry from `i` on with this anchor; `n` entries are left. -/
def hFind (anchor : Ptr) (s : HStk) : Nat → Nat → HM (Option Nat)
  | 0, _ => return none
  | n + 1, i => do
    let d : Ptr × Nat ← hGet i s
    if ← hSame d.1 anchor then return some d.2 else hFind anchor s n (i + 1)

/-- `STACK_LIMIT(…, INT_MAX-1)` (yaml_private.h:438-442) -/
def hLimit (s : HStk) : Bool := decide (s.top < intMax - 1)

/-- loader.c:262-291 `yaml_parser_register_anchor` -/
def hRegister (index : Nat) (anchor : Ptr) (s : HLoad) : HM (Bool × HLoad) := do
  if anchor.isNone then return (true, s)
  else do
    match ← hFind anchor s.aliases s.aliases.top 0 with
    | some _ => do
      free anchor
      return (false, s)
    | none => do
      let (ok, as) ← hPush (anchor, index) s.aliases
      if !ok then do
        free anchor
        return (false, s)
      else return (true, { s with aliases := as })

/-- loader.c:316-336: one more child of a mapping -/
def hAddPair (index : Nat) (s : HStk) : HM (Bool × HStk) := do
  let again : HM (Bool × HStk) := do
    if !hLimit s then return (false, s) else hPush ((index : Int), (0 : Int)) s
  if s.top = 0 then again
  else do
    let p : Int × Int ← hGet (s.top - 1) s
    if p.1 ≠ 0 ∧ p.2 = 0 then do
      hSet (s.top - 1) (p.1, (index : Int)) s
      return (true, s)
    else again

/-- loader.c:297-344 `yaml_parser_load_node_add` -/
def hNodeAdd (index : Nat) (s : HLoad) : HM (Bool × HLoad) := do
  if s.ctx.top = 0 then return (true, s)
  else do
    let c : Int ← hGet (s.ctx.top - 1) s.ctx
    match (← hGet (c.toNat - 1) s.doc.nodes : HNode) with
    | .sequence t k st => do
      if !hLimit k then return (false, s)
      else do
        let (ok, k) ← hPush (index : Int) k
        hSet (c.toNat - 1) (HNode.sequence t k st) s.doc.nodes
        return (ok, s)
    | .mapping t k st => do
      let (ok, k) ← hAddPair index k
      hSet (c.toNat - 1) (HNode.mapping t k st) s.doc.nodes
      return (ok, s)
    | .scalar .. => fun _ => .error .ub

/-- loader.c:349-368 `yaml_parser_load_alias` -/
def hLoadAlias (anchor : Ptr) (s : HLoad) : HM (Bool × HLoad) := do
  match ← hFind anchor s.aliases s.aliases.top 0 with
  | some i => do
    free anchor
    hNodeAdd i s
  | none => do
    free anchor
    return (false, s)

/-- loader.c:382-386, 424-428, 492-496: the tag of a node; the first result is false if `yaml_strdup` failed. -/
def hTag (dflt : Text) (tag : Ptr) : HM (Bool × Ptr) := do
  let bang ← (do if tag.isNone then return true else return (← hString tag) == [0x21] : HM Bool)
  if bang then do
    free tag
    let p ← malloc (.bytes (literal dflt))
    return (p.isSome, p)
  else return (true, tag)

/-- loader.c:373-408 `yaml_parser_load_scalar` -/
def hLoadScalar (anchor tag value : Ptr) (length : Nat) (style : ScalarStyle) (s : HLoad) : HM (Bool × HLoad) := do
  if !hLimit s.doc.nodes then do free tag; free anchor; free value; return (false, s)
  else do
    let (ok, tag) ← hTag strTag tag
    if !ok then do free tag; free anchor; free value; return (false, s)
    else do
      let (ok, nodes) ← hPush (HNode.scalar tag value length style) s.doc.nodes
      let s := { s with doc := { s.doc with nodes } }
      if !ok then do free tag; free anchor; free value; return (false, s)
      else do
        let (ok, s) ← hRegister nodes.top anchor s
        if !ok then return (false, s) else hNodeAdd nodes.top s

/-- loader.c:413-458, 481-526 `yaml_parser_load_sequence`, `yaml_parser_load_mapping`. Note that `items` and `pairs` are not freed at the
label `error`. -/
def hLoadColl (α : Type) [Cell α] (dflt : Text) (make : Ptr → HStk → HNode) (anchor tag : Ptr) (s : HLoad) : HM (Bool × HLoad) := do
  if !hLimit s.doc.nodes then do free tag; free anchor; return (false, s)
  else do
    let (ok, tag) ← hTag dflt tag
    if !ok then do free tag; free anchor; return (false, s)
    else do
      let (ok, items) ← hInit α
      if !ok then do free tag; free anchor; return (false, s)
      else do
        let (ok, nodes) ← hPush (make tag items) s.doc.nodes
        let s := { s with doc := { s.doc with nodes } }
        if !ok then do free tag; free anchor; return (false, s)
        else do
          let (ok, s) ← hRegister nodes.top anchor s
          if !ok then return (false, s)
          else do
            let (ok, s) ← hNodeAdd nodes.top s
            if !ok then return (false, s)
            else do
              if !hLimit s.ctx then return (false, s)
              else do
                let (ok, ctx) ← hPush (nodes.top : Int) s.ctx
                return (ok, { s with ctx })

/-- loader.c:460-476, 528-544 `yaml_parser_load_sequence_end`, `yaml_parser_load_mapping_end` -/
def hClose (isKind : HNode → Bool) (s : HLoad) : HM (Bool × HLoad) := do
  assertH (decide (0 < s.ctx.top))
  let c : Int ← hGet (s.ctx.top - 1) s.ctx
  let nd : HNode ← hGet (c.toNat - 1) s.doc.nodes
  assertH (isKind nd)
  let (_, ctx) ← (hPop s.ctx : HM (Int × HStk))
  return (true, { s with ctx })

def HNode.isSeq : HNode → Bool
  | .sequence .. => true
  | _ => false

def HNode.isMap : HNode → Bool
  | .mapping .. => true
  | _ => false

/-- The body of the loop of `yaml_parser_load_nodes` (loader.c:223-250). -/
def hComposeEvent (e : HEvent) (s : HLoad) : HM (Bool × HLoad) :=
  match e with
  | .alias a => hLoadAlias a s
  | .scalar a t v n _ _ st => hLoadScalar a t v n st s
  | .sequenceStart a t _ st => hLoadColl Int seqTag (fun t k => .sequence t k st) a t s
  | .sequenceEnd => hClose HNode.isSeq s
  | .mappingStart a t _ st => hLoadColl (Int × Int) mapTag (fun t k => .mapping t k st) a t s
  | .mappingEnd => hClose HNode.isMap s
  | _ => fun _ => .error .ub

/-- loader.c:215-257 `yaml_parser_load_nodes` -/
def hLoadNodes : Outcomes → HLoad → HM (Bool × HLoad × Outcomes)
  | [], s => return (false, s, [])
  | none :: es, s => return (false, s, es)
  | some e :: es, s => do
    match ← giveEvent e.data with
    | .documentEnd i => return (true, { s with doc := { s.doc with endImplicit := i } }, es)
    | e => do
      let (ok, s) ← hComposeEvent e s
      if !ok then return (false, s, es) else hLoadNodes es s

/-- loader.c:183-210 `yaml_parser_load_document` -/
def hLoadDocument (e : HEvent) (es : Outcomes) (s : HLoad) : HM (Bool × HLoad × Outcomes) := do
  match e with
  | .documentStart v ts i => do
    let s := { s with doc := { s.doc with version := v, tags := ts, startImplicit := i } }
    let (ok, ctx) ← hInit Int
    if !ok then return (false, s, es)
    else do
      let (ok, s, es) ← hLoadNodes es { s with ctx }
      free s.ctx.start
      return (ok, { s with ctx := {} }, es)
  | _ => fun _ => .error .ub

/-- The anchors of `n` aliases, the last one first. -/
def freeAnchors : Nat → HStk → HM Unit
  | 0, _ => return ()
  | n + 1, s => do
    let d : Ptr × Nat ← hGet n s
    free d.1
    freeAnchors n s

/-- loader.c:170-176 `yaml_parser_delete_aliases` -/
def hDeleteAliases (s : HStk) : HM HStk := do
  freeAnchors s.top s
  free s.start
  return {}

/-- What the loader knows of the parser: `stream_start_produced`, `stream_end_produced`, the outcomes to come, and `aliases`. -/
structure HParser where
  started : Bool := false
  ended : Bool := false
  outcomes : Outcomes
  aliases : HStk := {}

/-- The label `error` of `yaml_parser_load` (loader.c:126-132). `yaml_document_delete` clears the document. -/
def hLoadError (s : HLoad) (p : HParser) : HM (Bool × HDoc × HParser) := do
  let as ← hDeleteAliases s.aliases
  documentDelete s.doc
  return (false, {}, { p with aliases := as })

/-- loader.c:103-124, behind STREAM-START -/
def hLoadRest (d : HDoc) (p : HParser) : HM (Bool × HDoc × HParser) := do
  if p.ended then return (true, d, p)
  else do
    let (e, es) ← hParse p.outcomes
    let p := { p with outcomes := es }
    match e with
    | none => hLoadError { doc := d, aliases := p.aliases } p
    | some .streamEnd => return (true, d, { p with ended := true })
    | some e => do
      let (ok, as) ← hInit (Ptr × Nat)
      if !ok then hLoadError { doc := d } p
      else do
        let (ok, s, es) ← hLoadDocument e p.outcomes { doc := d, aliases := as }
        let p := { p with outcomes := es }
        if !ok then hLoadError s p
        else do
          let as ← hDeleteAliases s.aliases
          return (true, s.doc, { p with aliases := as })

/-- loader.c:85-133 `yaml_parser_load` -/
def hLoad (p : HParser) : HM (Bool × HDoc × HParser) := do
  let (ok, nodes) ← hInit HNode
  if !ok then hLoadError { aliases := p.aliases } p
  else do
    let d : HDoc := { nodes }
    if p.started then hLoadRest d p
    else do
      let (e, es) ← hParse p.outcomes
      let p := { p with outcomes := es }
      match e with
      | none => hLoadError { doc := d, aliases := p.aliases } p
      | some (.streamStart _) => hLoadRest d { p with started := true }
      | some _ => fun _ => .error .ub

end LibYaml
