import Verif.Model.Writer
import Verif.Model.Types

/-!
# Model of the document API (`src/api.c:1031-1400`)

`ok : Bool` says whether all allocations of the call succeed. Stacks are lists (justified by C12: a refused push
leaves the stack as it was). Strings are given as bytes, as by a C caller; a node stores the decoded text.
-/

namespace LibYaml

open Spec

/-- The text stored for a byte string that passed `yaml_check_utf8` (the C code copies the bytes). -/
def decodeText : Nat → List UInt8 → Option Text
  | _, [] => some []
  | 0, _ :: _ => none
  | fuel + 1, b :: rest =>
    match checkStep (b :: rest) with
    | none => none
    | some r =>
      match decodeText fuel r with
      | none => none
      | some cs => some (foldTrail (leadBits b.toNat) (rest.take (width b.toNat - 1)) :: cs)

/-- `yaml_check_utf8` followed by a copy: `none` if the check fails. -/
def apiText (bytes : List UInt8) : Option Text := decodeText bytes.length bytes

/-- Tag argument of the `add` functions: `NULL` means the default tag (api.c:1212-1214, 1261-1263, 1306-1308). -/
def apiTag (dflt : Text) : Option (List UInt8) → Option Text
  | none => some dflt
  | some bytes => apiText bytes

/-- Calls of the document API. -/
inductive DOp
  | addScalar (tag : Option (List UInt8)) (value : List UInt8) (style : ScalarStyle) (ok : Bool)
  | addSequence (tag : Option (List UInt8)) (style : CollStyle) (ok : Bool)
  | addMapping (tag : Option (List UInt8)) (style : CollStyle) (ok : Bool)
  | appendItem (sequence item : Int) (ok : Bool)
  | appendPair (mapping key value : Int) (ok : Bool)

/-- `PUSH(&context, document->nodes, node)` and the returned id (api.c:1231-1233, 1276-1278, 1321-1323). -/
def pushNode (ok : Bool) (nd : Node) (d : Doc) : Int × Doc :=
  if ok then ((d.nodes.length + 1 : Nat), { d with nodes := d.nodes ++ [nd] }) else (0, d)

/-- api.c:1193-1240 `yaml_document_add_scalar` -/
def addScalar (tag : Option (List UInt8)) (value : List UInt8) (style : ScalarStyle) (ok : Bool) (d : Doc) : Int × Doc :=
  match apiTag strTag tag with
  | none => (0, d)
  | some t =>
    match apiText value with
    | none => (0, d)
    | some v => pushNode ok { tag := t, data := .scalar v style } d

/-- api.c:1243-1285 `yaml_document_add_sequence` -/
def addSequence (tag : Option (List UInt8)) (style : CollStyle) (ok : Bool) (d : Doc) : Int × Doc :=
  match apiTag seqTag tag with
  | none => (0, d)
  | some t => pushNode ok { tag := t, data := .sequence [] style } d

/-- api.c:1288-1330 `yaml_document_add_mapping` -/
def addMapping (tag : Option (List UInt8)) (style : CollStyle) (ok : Bool) (d : Doc) : Int × Doc :=
  match apiTag mapTag tag with
  | none => (0, d)
  | some t => pushNode ok { tag := t, data := .mapping [] style } d

/-- The asserted condition `i > 0 && nodes.start + i <= nodes.top`. -/
def validId (d : Doc) (i : Int) : Bool := decide (0 < i ∧ i ≤ d.nodes.length)

/-- api.c:1333-1357 `yaml_document_append_sequence_item`; a failed `assert` is `ub`. -/
def appendItem (seq item : Int) (ok : Bool) (d : Doc) : Except Fail (Int × Doc) :=
  if validId d seq then
    match d.nodes[seq.toNat - 1]? with
    | some { tag, data := .sequence items style, start, stop } =>
      if validId d item then
        let nd : Node := { tag, data := .sequence (items ++ [item.toNat]) style, start, stop }
        if ok then .ok (1, { d with nodes := d.nodes.set (seq.toNat - 1) nd })
        else .ok (0, d)
      else .error .ub
    | _ => .error .ub
  else .error .ub

/-- api.c:1360-1396 `yaml_document_append_mapping_pair` -/
def appendPair (mapping key value : Int) (ok : Bool) (d : Doc) : Except Fail (Int × Doc) :=
  if validId d mapping then
    match d.nodes[mapping.toNat - 1]? with
    | some { tag, data := .mapping pairs style, start, stop } =>
      if validId d key ∧ validId d value then
        let nd : Node := { tag, data := .mapping (pairs ++ [(key.toNat, value.toNat)]) style, start, stop }
        if ok then .ok (1, { d with nodes := d.nodes.set (mapping.toNat - 1) nd })
        else .ok (0, d)
      else .error .ub
    | _ => .error .ub
  else .error .ub

/-- One call. -/
def DOp.run (op : DOp) (d : Doc) : Except Fail (Int × Doc) :=
  match op with
  | .addScalar tag value style ok => .ok (LibYaml.addScalar tag value style ok d)
  | .addSequence tag style ok => .ok (LibYaml.addSequence tag style ok d)
  | .addMapping tag style ok => .ok (LibYaml.addMapping tag style ok d)
  | .appendItem s i ok => LibYaml.appendItem s i ok d
  | .appendPair m k v ok => LibYaml.appendPair m k v ok d

/-- A history of calls, with the returned numbers. -/
def runDoc : List DOp → Doc → Except Fail (List Int × Doc)
  | [], d => .ok ([], d)
  | op :: ops, d =>
    match op.run d with
    | .error e => .error e
    | .ok (r, d) =>
      match runDoc ops d with
      | .error e => .error e
      | .ok (rs, d) => .ok (r :: rs, d)

/-- api.c:1163-1173 `yaml_document_get_node` -/
def getNode (d : Doc) (i : Int) : Option Node :=
  if 0 < i ∧ i ≤ d.nodes.length then d.nodes[i.toNat - 1]? else none

/-- api.c:1178-1188 `yaml_document_get_root_node` -/
def getRoot (d : Doc) : Option Node := if d.nodes.length ≠ 0 then d.nodes[0]? else none

end LibYaml
