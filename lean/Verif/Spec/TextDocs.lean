import Verif.Spec.ReadBack
import Verif.Spec.Language

/-!
# Specification: the documents of a text

A text that is a YAML stream has documents; `TextDocs en text ws` says which. An alias must name a node that begins before it in the same
document, and no two nodes of a document have the same anchor.
-/

namespace LibYaml.Spec

open LibYaml (EvData Event Text Doc Node NodeData)

/-- The anchors in the body of a document are right. -/
def Anchored (w : List EvData) : Prop :=
  (∀ u a v, w = u ++ .alias a :: v → ∃ e ∈ u, anchorOf e = some a) ∧
  ∀ u e v a, w = u ++ e :: v → anchorOf e = some a → ∀ e' ∈ u, anchorOf e' ≠ some a

/-- The events of a document that can be composed. -/
def DocWord (w : List EvData) : Prop :=
  ∃ v ts i body j, G .node body ∧ Anchored body ∧ w = .documentStart v ts i :: body ++ [.documentEnd j]

/-- The text is a stream with the documents `ws`, each given by its events. -/
def TextDocs (en : Enc) (text : List Nat) (ws : List (List EvData)) : Prop :=
  (∃ e, Meaning en text (.streamStart e :: ws.flatten ++ [.streamEnd])) ∧ ∀ w ∈ ws, DocWord w

/-- The document represents events with these data: the positions in the document are those of events with these data. -/
def RepData (w : List EvData) (d : Doc) : Prop := ∃ es : List Event, es.map Event.data = w ∧ RepDoc es d

end LibYaml.Spec
