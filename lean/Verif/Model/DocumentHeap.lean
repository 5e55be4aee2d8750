import Verif.Model.EventApi
import Verif.Model.Document

/-!
# The document API on the heap (`src/api.c:1035-1400`)

Marks are omitted: the API sets them to zero.
-/

namespace LibYaml

/-- yaml.h:780-818 `yaml_document_t` with pointers. `nodes.end` is the end of the block; `tags.top` is `tag_directives.end`. -/
structure HDoc where
  nodes : HStk := {}
  version : Ptr := none
  tags : HStk := {}
  startImplicit : Bool := false
  endImplicit : Bool := false
  deriving DecidableEq, Repr

/-- A string literal as a C string. -/
def literal (t : Text) : List UInt8 := t.map Nat.toUInt8 ++ [0]

/-- api.c:1034-1116 `yaml_document_initialize` -/
def documentInit (version : Option Version) (tags : List (List UInt8 × List UInt8)) (startImplicit endImplicit : Bool) : HM (Option HDoc) := do
  let (ok, nodes) ← hInit HNode
  if !ok then do
    free nodes.start
    return none
  else do
    let (ok, v) ← copyVersion version
    if !ok then do
      free nodes.start
      free v
      return none
    else do
      let (ok, s, p, q) ← copyTags tags
      if ok then return some { nodes := { nodes with top := 0 }, version := v, tags := s, startImplicit, endImplicit }
      else do
        free nodes.start
        free v
        freeDirs s.top s
        free s.start
        free p
        free q
        return none

/-- The `tag` of a node. -/
def HNode.tag : HNode → Ptr
  | .scalar t _ _ _ => t
  | .sequence t _ _ => t
  | .mapping t _ _ => t

/-- The other block of a node: the value or the array of the children. -/
def HNode.body : HNode → Ptr
  | .scalar _ v _ _ => v
  | .sequence _ s _ => s.start
  | .mapping _ s _ => s.start

/-- api.c:1128-1144: the nodes are popped and freed. -/
def freeNodes : Nat → HStk → HM Unit
  | 0, _ => return ()
  | n + 1, s => do
    let nd : HNode ← hGet n s
    free nd.tag
    free nd.body
    freeNodes n s

/-- api.c:1121-1157 `yaml_document_delete` -/
def documentDelete (d : HDoc) : HM Unit := do
  freeNodes d.nodes.top d.nodes
  free d.nodes.start
  free d.version
  freeDirsFrom d.tags.top 0 d.tags
  free d.tags.start

/-- api.c:1193-1240 `yaml_document_add_scalar`. The result is the id and the document. -/
def hAddScalar (tag : Option (List UInt8)) (value : List UInt8) (length : Int) (style : ScalarStyle) (d : HDoc) : HM (Int × HDoc) := do
  let buf := match tag with | none => literal strTag | some b => b
  let (ok, t) ← copyString buf
  if !ok then do free t; return (0, d)
  else do
    let (ok, v, n) ← copyValue value length
    if !ok then do free t; free v; return (0, d)
    else do
      let (ok, nodes) ← hPush (HNode.scalar t v n style) d.nodes
      if !ok then do free t; free v; return (0, { d with nodes })
      else return ((nodes.top : Nat), { d with nodes })

/-- api.c:1243-1285, 1288-1330 `yaml_document_add_sequence`, `yaml_document_add_mapping` -/
def hAddColl (α : Type) [Cell α] (dflt : Text) (make : Ptr → HStk → HNode) (tag : Option (List UInt8)) (d : HDoc) : HM (Int × HDoc) := do
  let buf := match tag with | none => literal dflt | some b => b
  let (ok, t) ← copyString buf
  if !ok then do free t; return (0, d)
  else do
    let (ok, s) ← hInit α
    if !ok then do free s.start; free t; return (0, d)
    else do
      let (ok, nodes) ← hPush (make t s) d.nodes
      if !ok then do free s.start; free t; return (0, { d with nodes })
      else return ((nodes.top : Nat), { d with nodes })

/-- The condition `i > 0 && nodes.start + i <= nodes.top`. -/
def hValidId (d : HDoc) (i : Int) : Bool := decide (0 < i ∧ i ≤ d.nodes.top)

/-- api.c:1333-1357 `yaml_document_append_sequence_item` -/
def hAppendItem (seq item : Int) (d : HDoc) : HM (Int × HDoc) := do
  assertH (hValidId d seq)
  match (← hGet (seq.toNat - 1) d.nodes : HNode) with
  | .sequence t s st => do
    assertH (hValidId d item)
    let (ok, s) ← hPush item s
    hSet (seq.toNat - 1) (HNode.sequence t s st) d.nodes
    return (if ok then 1 else 0, d)
  | _ => fun _ => .error .ub

/-- api.c:1360-1396 `yaml_document_append_mapping_pair` -/
def hAppendPair (mapping key value : Int) (d : HDoc) : HM (Int × HDoc) := do
  assertH (hValidId d mapping)
  match (← hGet (mapping.toNat - 1) d.nodes : HNode) with
  | .mapping t s st => do
    assertH (hValidId d key)
    assertH (hValidId d value)
    let (ok, s) ← hPush (key, value) s
    hSet (mapping.toNat - 1) (HNode.mapping t s st) d.nodes
    return (if ok then 1 else 0, d)
  | _ => fun _ => .error .ub

/-- Calls with the buffers of the caller. -/
inductive DocCall
  | addScalar (tag : Option (List UInt8)) (value : List UInt8) (length : Int) (style : ScalarStyle)
  | addSequence (tag : Option (List UInt8)) (style : CollStyle)
  | addMapping (tag : Option (List UInt8)) (style : CollStyle)
  | appendItem (sequence item : Int)
  | appendPair (mapping key value : Int)

/-- One call. -/
def DocCall.run (c : DocCall) (d : HDoc) : HM (Int × HDoc) :=
  match c with
  | .addScalar t v n s => hAddScalar t v n s d
  | .addSequence t s => hAddColl Int seqTag (fun t k => .sequence t k s) t d
  | .addMapping t s => hAddColl (Int × Int) mapTag (fun t k => .mapping t k s) t d
  | .appendItem s i => hAppendItem s i d
  | .appendPair m k v => hAppendPair m k v d

/-- A history of calls. -/
def hRunDoc : List DocCall → HDoc → HM (List Int × HDoc)
  | [], d => return ([], d)
  | c :: cs, d => do
    let (r, d) ← c.run d
    let (rs, d) ← hRunDoc cs d
    return (r :: rs, d)

end LibYaml
