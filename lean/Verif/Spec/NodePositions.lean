import Verif.Spec.Graph

/-!
# Positions of nodes

Where the nodes of a loaded document lie, compared with each other and with the document.
-/

namespace LibYaml.Spec

/-- The first node lies within the second. -/
def Within (a b : Node) : Prop := b.start.index ≤ a.start.index ∧ a.stop.index ≤ b.stop.index

/-- The nodes of a document lie in its extent, all of them within the root. Of two nodes the one with the greater number
lies within the other or starts after it has ended. Within a node lie all children that it is not an alias for: those
with greater numbers. -/
structure NodesNest (d : Doc) : Prop where
  span : d.start.index ≤ d.stop.index
  node : ∀ nd ∈ d.nodes, d.start.index ≤ nd.start.index ∧ nd.start.index ≤ nd.stop.index ∧ nd.stop.index ≤ d.stop.index
  root : ∀ r ∈ d.nodes.head?, ∀ nd ∈ d.nodes, Within nd r
  order : d.nodes.Pairwise fun a b => Within b a ∨ a.stop.index ≤ b.start.index
  child : ∀ i nd c nc, d.nodes[i]? = some nd → c + 1 ∈ nd.children → i < c → d.nodes[c]? = some nc → Within nc nd

end LibYaml.Spec
