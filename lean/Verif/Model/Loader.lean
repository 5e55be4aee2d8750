import Verif.Model.Parser

/-!
# Model of the loader (`src/loader.c`)

`room n` says whether a stack with `n` elements may grow (`STACK_LIMIT(…, INT_MAX-1)`, yaml_private.h:438-442, and the
allocation of `PUSH`); `cRoom` is the limit of the C code. Anchors are compared by `strcmp`; they contain no NUL, so this
is equality of the texts. Releasing memory is not modelled.
-/

namespace LibYaml

variable {σ : Type}

/-- `STACK_LIMIT(parser, …, INT_MAX-1)` with a 32-bit `int` (yaml_private.h:438-442). -/
def cRoom (n : Nat) : Bool := decide (n < 2147483647 - 1)

/-- yaml.h:1071-1078 `yaml_alias_data_t` -/
structure AliasData where
  anchor : Text
  index : Nat
  mark : Mark
  deriving DecidableEq, Repr

/-- The state of composing one document: `parser->document->nodes`, `parser->aliases`, and the stack `ctx` of open
collections (loader.c:43-47), top first. -/
structure CState where
  nodes : List Node := []
  aliases : List AliasData := []
  ctx : List Nat := []
  deriving DecidableEq, Repr

/-- loader.c:382-386, 424-428, 492-496: an absent tag and the tag `!` become the default tag. -/
def tagOr (dflt : Text) : Option Text → Text
  | none => dflt
  | some t => if t = lit ['!'] then dflt else t

/-- loader.c:262-291 `yaml_parser_register_anchor`; `mark` is the start mark of the node with this index. -/
def registerAnchor (index : Nat) (mark : Mark) (anchor : Option Text) (as : List AliasData) : Except Fail (List AliasData) :=
  match anchor with
  | none => .ok as
  | some a =>
    match as.find? (fun d => d.anchor == a) with
    | some d => .error (.composer (some "found duplicate anchor; first occurrence") d.mark "second occurrence" mark)
    | none => .ok (as ++ [{ anchor := a, index := index, mark := mark }])

/-- loader.c:320-336: the pairs of a mapping after one more child. -/
def addToPairs (room : Nat → Bool) (pairs : List (Nat × Nat)) (index : Nat) : Except Fail (List (Nat × Nat)) :=
  match pairs.getLast? with
  | some (k, v) =>
    if k ≠ 0 ∧ v = 0 then .ok (pairs.dropLast ++ [(k, index)])
    else if room pairs.length then .ok (pairs ++ [(index, 0)]) else .error .memory
  | none => if room pairs.length then .ok (pairs ++ [(index, 0)]) else .error .memory

/-- loader.c:311-342: a parent after one more child; the `assert(0)` for a scalar is `ub`. -/
def addChild (room : Nat → Bool) (index : Nat) (parent : Node) : Except Fail Node :=
  match parent.data with
  | .sequence items style =>
    if room items.length then .ok { parent with data := .sequence (items ++ [index]) style } else .error .memory
  | .mapping pairs style =>
    match addToPairs room pairs index with
    | .ok pairs => .ok { parent with data := .mapping pairs style }
    | .error e => .error e
  | .scalar .. => .error .ub

/-- loader.c:297-344 `yaml_parser_load_node_add` -/
def nodeAdd (room : Nat → Bool) (index : Nat) (s : CState) : Except Fail CState :=
  match s.ctx with
  | [] => .ok s
  | c :: _ =>
    match s.nodes[c - 1]? with
    | none => .error .ub
    | some parent =>
      match addChild room index parent with
      | .ok parent => .ok { s with nodes := s.nodes.set (c - 1) parent }
      | .error e => .error e

/-- The common part of `yaml_parser_load_scalar`, `_sequence`, `_mapping` (loader.c:373-408, 413-458, 481-526): push the
node, register the anchor, add the node to its parent, and, for a collection, open it. -/
def addNode (room : Nat → Bool) (nd : Node) (anchor : Option Text) (opens : Bool) (s : CState) : Except Fail CState :=
  if room s.nodes.length then
    let index := s.nodes.length + 1
    match registerAnchor index nd.start anchor s.aliases with
    | .error e => .error e
    | .ok as =>
      match nodeAdd room index { s with nodes := s.nodes ++ [nd], aliases := as } with
      | .error e => .error e
      | .ok s =>
        if opens then
          if room s.ctx.length then .ok { s with ctx := index :: s.ctx } else .error .memory
        else .ok s
  else .error .memory

/-- loader.c:349-368 `yaml_parser_load_alias` -/
def loadAlias (room : Nat → Bool) (anchor : Text) (mark : Mark) (s : CState) : Except Fail CState :=
  match s.aliases.find? (fun d => d.anchor == anchor) with
  | some d => nodeAdd room d.index s
  | none => .error (.composer none {} "found undefined alias" mark)

/-- loader.c:460-476, 528-544 `yaml_parser_load_sequence_end`, `yaml_parser_load_mapping_end`; `isKind` is the asserted
kind of node. -/
def closeNode (isKind : NodeData → Bool) (stop : Mark) (s : CState) : Except Fail CState :=
  match s.ctx with
  | [] => .error .ub
  | c :: ctx =>
    match s.nodes[c - 1]? with
    | none => .error .ub
    | some nd =>
      if isKind nd.data then .ok { s with nodes := s.nodes.set (c - 1) { nd with stop := stop }, ctx := ctx }
      else .error .ub

/-- Kinds of nodes. -/
def NodeData.isSeq : NodeData → Bool
  | .sequence .. => true
  | _ => false
def NodeData.isMap : NodeData → Bool
  | .mapping .. => true
  | _ => false

/-- The body of the loop of `yaml_parser_load_nodes` (loader.c:223-250); other events hit `assert(0)`. -/
def composeEvent (room : Nat → Bool) (e : Event) (s : CState) : Except Fail CState :=
  match e.data with
  | .alias a => loadAlias room a e.start s
  | .scalar anchor tag value _ _ style =>
    addNode room { tag := tagOr strTag tag, data := .scalar value style, start := e.start, stop := e.stop } anchor false s
  | .sequenceStart anchor tag _ style =>
    addNode room { tag := tagOr seqTag tag, data := .sequence [] style, start := e.start, stop := e.stop } anchor true s
  | .sequenceEnd => closeNode NodeData.isSeq e.stop s
  | .mappingStart anchor tag _ style =>
    addNode room { tag := tagOr mapTag tag, data := .mapping [] style, start := e.start, stop := e.stop } anchor true s
  | .mappingEnd => closeNode NodeData.isMap e.stop s
  | _ => .error .ub

/-- How composing the nodes of a document ends. -/
inductive NOut
  | done (s : CState) (implicit : Bool) (stop : Mark)
  | failed

/-- loader.c:215-257 `yaml_parser_load_nodes`: events up to DOCUMENT-END; a success without event hits `assert(0)`. -/
def loadNodes (room : Nat → Bool) (S : TokSrc σ) (maxLevel : Int) (fuel : Nat) :
    Nat → CState → Parser σ → Except Fail (NOut × Parser σ)
  | 0, _, _ => .error .fuel
  | n + 1, s, p =>
    match parse S maxLevel fuel p with
    | .error e => .error e
    | .ok (.failed, p) => .ok (.failed, p)
    | .ok (.noEvent, _) => .error .ub
    | .ok (.event e, p) =>
      match e.data with
      | .documentEnd implicit => .ok (.done s implicit e.stop, p)
      | _ =>
        match composeEvent room e s with
        | .ok s => loadNodes room S maxLevel fuel n s p
        | .error .ub => .error .ub
        | .error err => .ok (.failed, { p with error := some err })

/-- Result of `yaml_parser_load`: 1 with a document, or 0. -/
inductive LOut
  | doc (d : Doc)
  | failed
  deriving DecidableEq, Repr

/-- The document after `memset` (loader.c:93): no node. -/
def Doc.empty : Doc := { startImplicit := false, endImplicit := false }

/-- loader.c:183-210 `yaml_parser_load_document`; another event than DOCUMENT-START fails the assertion. -/
def loadDocument (room : Nat → Bool) (S : TokSrc σ) (maxLevel : Int) (fuel n : Nat) (e : Event) (p : Parser σ) :
    Except Fail (LOut × Parser σ) :=
  match e.data with
  | .documentStart version tags implicit =>
    match loadNodes room S maxLevel fuel n {} p with
    | .error err => .error err
    | .ok (.failed, p) => .ok (.failed, p)
    | .ok (.done s endImplicit stop, p) =>
      .ok (.doc { nodes := s.nodes, version, tags, startImplicit := implicit, endImplicit, start := e.start, stop }, p)
  | _ => .error .ub

/-- The second half of `yaml_parser_load` (loader.c:103-124). -/
def loadRest (room : Nat → Bool) (S : TokSrc σ) (maxLevel : Int) (fuel n : Nat) (p : Parser σ) :
    Except Fail (LOut × Parser σ) :=
  if p.st.ended then .ok (.doc Doc.empty, p)
  else
    match parse S maxLevel fuel p with
    | .error e => .error e
    | .ok (.failed, p) => .ok (.failed, p)
    | .ok (.noEvent, _) => .error .ub
    | .ok (.event e, p) =>
      match e.data with
      | .streamEnd => .ok (.doc Doc.empty, p)
      | _ => loadDocument room S maxLevel fuel n e p

/-- loader.c:85-133 `yaml_parser_load`. `stream_start_produced` is set by the scanner together with the token
STREAM-START, which the parser turns into an event at once; so it is set iff the parser has left its first state.
A failed `assert` is `ub`. `n` is the fuel of the loop in `yaml_parser_load_nodes`. -/
def load (room : Nat → Bool) (S : TokSrc σ) (maxLevel : Int) (fuel n : Nat) (p : Parser σ) :
    Except Fail (LOut × Parser σ) :=
  if p.st.state = .streamStart then
    match parse S maxLevel fuel p with
    | .error e => .error e
    | .ok (.failed, p) => .ok (.failed, p)
    | .ok (.noEvent, _) => .error .ub
    | .ok (.event e, p) =>
      match e.data with
      | .streamStart _ => loadRest room S maxLevel fuel n p
      | _ => .error .ub
  else loadRest room S maxLevel fuel n p

/-- `k` successive calls. -/
def loadN (room : Nat → Bool) (S : TokSrc σ) (maxLevel : Int) (fuel n : Nat) :
    Nat → Parser σ → Except Fail (List LOut × Parser σ)
  | 0, p => .ok ([], p)
  | k + 1, p =>
    match load room S maxLevel fuel n p with
    | .error e => .error e
    | .ok (o, p) =>
      match loadN room S maxLevel fuel n k p with
      | .error e => .error e
      | .ok (os, p) => .ok (o :: os, p)

end LibYaml
