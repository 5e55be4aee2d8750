import Verif.Model.Types

/-!
# Specification: node graphs

A document is a graph: nodes, numbered from 1, with ordered children. `NodeWalk` is the pre-order walk over it in which a node is
entered only where it is met for the first time.
-/

namespace LibYaml

/-- The children of a node. -/
def Node.children (nd : Node) : List Nat :=
  match nd.data with
  | .scalar .. => []
  | .sequence items _ => items
  | .mapping pairs _ => pairs.flatMap fun p => [p.1, p.2]

/-- Node `j` can be reached from one of the nodes `ids` by going to children. -/
inductive NodeReach (nodes : List Node) (ids : List Nat) : Nat → Prop
  | here {i} : i ∈ ids → NodeReach nodes ids i
  | child {i nd j} : NodeReach nodes ids i → 0 < i → nodes[i - 1]? = some nd → j ∈ nd.children → NodeReach nodes ids j

/-- All ids in the nodes denote nodes. -/
def GraphOk (nodes : List Node) : Prop := ∀ nd ∈ nodes, ∀ i ∈ nd.children, 0 < i ∧ i ≤ nodes.length

namespace Spec

/-- What the walk meets: a node met before, a new scalar, the beginning and the end of a new collection. -/
inductive Step
  | again (i : Nat)
  | leaf (i : Nat)
  | enter (i : Nat)
  | leave (i : Nat)
  deriving DecidableEq, Repr

/-- The nodes met for the first time, in order. -/
def fulls : List Step → List Nat
  | [] => []
  | .leaf i :: w => i :: fulls w
  | .enter i :: w => i :: fulls w
  | _ :: w => fulls w

/-- All references met, in order. -/
def refs : List Step → List Nat
  | [] => []
  | .again i :: w => i :: refs w
  | .leaf i :: w => i :: refs w
  | .enter i :: w => i :: refs w
  | .leave _ :: w => refs w

/-- The node is a collection. -/
def isColl (nd : Node) : Prop := match nd.data with
  | .scalar .. => False
  | _ => True

/-- `NodeWalk nodes seen ids w seen'`: walking over the nodes `ids` one after the other, when the nodes `seen` (last one first) have been met,
gives the steps `w`, and then `seen'` have been met. -/
inductive NodeWalk (nodes : List Node) : List Nat → List Nat → List Step → List Nat → Prop
  | nil {S} : NodeWalk nodes S [] [] S
  | again {S i is w S'} : i ∈ S → NodeWalk nodes S is w S' → NodeWalk nodes S (i :: is) (.again i :: w) S'
  | leaf {S i is nd w S'} : 0 < i → i ∉ S → nodes[i - 1]? = some nd → ¬ isColl nd → NodeWalk nodes (i :: S) is w S' →
      NodeWalk nodes S (i :: is) (.leaf i :: w) S'
  | coll {S i is nd c w S1 S'} : 0 < i → i ∉ S → nodes[i - 1]? = some nd → isColl nd → NodeWalk nodes (i :: S) nd.children c S1 →
      NodeWalk nodes S1 is w S' → NodeWalk nodes S (i :: is) (.enter i :: (c ++ .leave i :: w)) S'

/-- The references met for the second time, in order; `seen` are the references met before. -/
def twice (seen : List Nat) : List Nat → List Nat
  | [] => []
  | i :: R => if seen.count i = 1 then i :: twice (i :: seen) R else twice (i :: seen) R

/-- The position of a node in a list, from 1; 0 if it is not there. -/
def number (l : List Nat) (i : Nat) : Nat := if i ∈ l then l.idxOf i + 1 else 0

/-- The event of a step; `name i` is the anchor of node `i`, if it has one. Nodes are written with their tags; the tag may be left out if
it is the default tag of the kind of node. -/
def stepEvent (nodes : List Node) (name : Nat → Option Text) : Step → Option EvData
  | .again i => (name i).map .alias
  | .leaf i =>
    match nodes[i - 1]? with
    | some { tag := t, data := .scalar v s, .. } => some (.scalar (name i) (some t) v (decide (t = strTag)) (decide (t = strTag)) s)
    | _ => none
  | .enter i =>
    match nodes[i - 1]? with
    | some { tag := t, data := .sequence _ s, .. } => some (.sequenceStart (name i) (some t) (decide (t = seqTag)) s)
    | some { tag := t, data := .mapping _ s, .. } => some (.mappingStart (name i) (some t) (decide (t = mapTag)) s)
    | _ => none
  | .leave i =>
    match nodes[i - 1]? with
    | some { data := .sequence .., .. } => some .sequenceEnd
    | some { data := .mapping .., .. } => some .mappingEnd
    | _ => none

/-- The events of a walk. -/
def walkEvents (nodes : List Node) (name : Nat → Option Text) (w : List Step) : List EvData := w.filterMap (stepEvent nodes name)

/-- The events of a document. -/
def docEvents (d : Doc) (name : Nat → Option Text) (w : List Step) : List EvData :=
  .documentStart d.version d.tags d.startImplicit :: walkEvents d.nodes name w ++ [.documentEnd d.endImplicit]

/-- The default tag of a kind of node. -/
def defaultTag : NodeData → Text
  | .scalar .. => strTag
  | .sequence .. => seqTag
  | .mapping .. => mapTag

/-- The contents of a node with its children renamed. -/
def relabel (pos : Nat → Nat) : NodeData → NodeData
  | .scalar v s => .scalar v s
  | .sequence items s => .sequence (items.map pos) s
  | .mapping ps s => .mapping (ps.map fun p => (pos p.1, pos p.2)) s

/-- `pos` is an isomorphism from the part of `nodes` that can be reached from node 1 onto `nodes'`: it maps these nodes one to one onto the
nodes of `nodes'`, the root to the root, and preserves kind, value, style and children in order; also tags, except that the tag `!` becomes
the default tag. -/
def IsoFrom (nodes nodes' : List Node) (pos : Nat → Nat) : Prop :=
  pos 1 = 1 ∧
  (∀ i j, NodeReach nodes [1] i → NodeReach nodes [1] j → pos i = pos j → i = j) ∧
  (∀ k, 0 < k → k ≤ nodes'.length → ∃ i, NodeReach nodes [1] i ∧ pos i = k) ∧
  ∀ i, NodeReach nodes [1] i → 0 < pos i ∧ ∃ nd nd', nodes[i - 1]? = some nd ∧ nodes'[pos i - 1]? = some nd' ∧
    nd'.data = relabel pos nd.data ∧ nd'.tag = if nd.tag = [0x21] then defaultTag nd.data else nd.tag

end Spec

end LibYaml
