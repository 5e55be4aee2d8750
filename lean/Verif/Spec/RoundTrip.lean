import Verif.Spec.EmitParse
import Verif.Spec.Graph

/-!
# Specification: documents that survive being dumped and loaded

Styles and the markers of documents are presentation and need not survive. `Dumpable` states the conditions on the document; they exclude what
the emitter is known to write so that it is not read back (see `Spec.Readable`).
-/

namespace LibYaml.Spec

open LibYaml (EvData Text TagDir Doc Node NodeData GraphOk NodeReach)

/-- The contents of a node without the style. -/
def unstyled : NodeData → NodeData
  | .scalar v _ => .scalar v .any
  | .sequence items _ => .sequence items .any
  | .mapping ps _ => .mapping ps .any

/-- `pos` is an isomorphism from the part of `nodes` that can be reached from node 1 onto `nodes'`, up to styles: it maps these nodes one to
one onto the nodes of `nodes'`, the root to the root, and preserves kind, value and children in order; also tags, except that the tag `!`
becomes the default tag. -/
def IsoContent (nodes nodes' : List Node) (pos : Nat → Nat) : Prop :=
  pos 1 = 1 ∧
  (∀ i j, NodeReach nodes [1] i → NodeReach nodes [1] j → pos i = pos j → i = j) ∧
  (∀ k, 0 < k → k ≤ nodes'.length → ∃ i, NodeReach nodes [1] i ∧ pos i = k) ∧
  ∀ i, NodeReach nodes [1] i → 0 < pos i ∧ ∃ nd nd', nodes[i - 1]? = some nd ∧ nodes'[pos i - 1]? = some nd' ∧
    unstyled nd'.data = unstyled (relabel pos nd.data) ∧ nd'.tag = if nd.tag = [0x21] then defaultTag nd.data else nd.tag

/-- The same document up to presentation: version, tag directives and the graph of nodes. -/
def SameDoc (d d' : Doc) : Prop := d'.version = d.version ∧ d'.tags = d.tags ∧ ∃ pos, IsoContent d.nodes d'.nodes pos

/-- The document can be written and read back. -/
structure Dumpable (d : Doc) : Prop where
  graph : GraphOk d.nodes
  root : d.nodes ≠ []
  small : d.nodes.length ≤ 2147483647
  version : ∀ v, d.version = some v → GoodVersion v
  directives : GoodTags d.tags
  prefixes : ∀ t ∈ d.tags, ∀ c ∈ t.pfx, Storable c ∧ c ≠ 0
  tag : ∀ i nd, NodeReach d.nodes [1] i → d.nodes[i - 1]? = some nd → nd.tag ≠ [] ∧ TagWritable d.tags (some nd.tag)
  value : ∀ i nd v st, NodeReach d.nodes [1] i → d.nodes[i - 1]? = some nd → nd.data = .scalar v st →
    (∀ c ∈ v, UChar c) ∧ (st = .folded → ¬ FoldableIndented v)

/-- The document has no marker, no directives, and its root is a plain empty string: it may be written as nothing. -/
def Invisible (d : Doc) : Prop :=
  d.startImplicit = true ∧ d.version = none ∧ d.tags = [] ∧
    ∃ nd st, d.nodes[0]? = some nd ∧ nd.tag = strTag ∧ nd.data = .scalar [] st ∧ (st = .any ∨ st = .plain)

end LibYaml.Spec
