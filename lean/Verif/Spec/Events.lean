import Verif.Model.Types

/-!
# Specification: the event grammar (`include/yaml.h` documentation, `doc`; YAML serialisation)

```
stream   ::= STREAM-START document* STREAM-END
document ::= DOCUMENT-START node DOCUMENT-END
node     ::= ALIAS | SCALAR | SEQUENCE-START node* SEQUENCE-END | MAPPING-START (node node)* MAPPING-END
```
-/

namespace LibYaml.Spec

open LibYaml (EvData)

/-- Nonterminals below a document. -/
inductive Sym | node | nodes | pairs

/-- The words derived from a nonterminal. -/
inductive G : Sym → List EvData → Prop
  | alias (a) : G .node [.alias a]
  | scalar (a t v p q s) : G .node [.scalar a t v p q s]
  | seq (a t i s) {w} : G .nodes w → G .node (.sequenceStart a t i s :: w ++ [.sequenceEnd])
  | map (a t i s) {w} : G .pairs w → G .node (.mappingStart a t i s :: w ++ [.mappingEnd])
  | nodesNil : G .nodes []
  | nodesCons {v w} : G .node v → G .nodes w → G .nodes (v ++ w)
  | pairsNil : G .pairs []
  | pairsCons {k v w} : G .node k → G .node v → G .pairs w → G .pairs (k ++ (v ++ w))

/-- One document. -/
def GDoc (w : List EvData) : Prop :=
  ∃ v ts i n j, G .node n ∧ w = .documentStart v ts i :: n ++ [.documentEnd j]

/-- A sequence of documents. -/
inductive GDocs : List EvData → Prop
  | nil : GDocs []
  | cons {d w} : GDoc d → GDocs w → GDocs (d ++ w)

/-- A whole stream. -/
def GStream (w : List EvData) : Prop := ∃ enc ds, GDocs ds ∧ w = .streamStart enc :: ds ++ [.streamEnd]

end LibYaml.Spec
