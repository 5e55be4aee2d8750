import Verif.Spec.Events

/-!
# Specification: which node list represents which events

Nodes are numbered 1, 2, 3, … in the order of the events that start them. `Rep s A n w ids A' ns`: read in a place where
`n` nodes exist and the anchors `A` are bound to node ids, the events `w` (one node, several nodes, or several pairs,
according to `s`) denote the nodes with the ids `ids`, create the nodes `ns` (with ids `n+1`, `n+2`, …) and leave the
anchors `A'` bound.
-/

namespace LibYaml.Spec

open LibYaml (EvData Event Text Node Doc)

/-- The tag of a node: the default one if there is no tag or only `!`. -/
def nodeTag (dflt : Text) : Option Text → Text
  | none => dflt
  | some t => if t = [0x21] then dflt else t

/-- The anchor, if any, is not yet bound. -/
def Unbound (A : List (Text × Nat)) (a : Option Text) : Prop := ∀ x i, a = some x → (x, i) ∉ A

/-- Bind the anchor, if any. -/
def bindAnchor (A : List (Text × Nat)) (a : Option Text) (i : Nat) : List (Text × Nat) :=
  match a with
  | none => A
  | some x => A ++ [(x, i)]

inductive Rep : Sym → List (Text × Nat) → Nat → List Event → List Nat → List (Text × Nat) → List Node → Prop
  | alias {A n e a i} : e.data = .alias a → (a, i) ∈ A → Rep .node A n [e] [i] A []
  | scalar {A n e a t v p q s} : e.data = .scalar a t v p q s → Unbound A a →
      Rep .node A n [e] [n + 1] (bindAnchor A a (n + 1))
        [{ tag := nodeTag strTag t, data := .scalar v s, start := e.start, stop := e.stop }]
  | seq {A n e e' a t i s w items A' ns} : e.data = .sequenceStart a t i s → e'.data = .sequenceEnd → Unbound A a →
      Rep .nodes (bindAnchor A a (n + 1)) (n + 1) w items A' ns →
      Rep .node A n (e :: w ++ [e']) [n + 1] A'
        ({ tag := nodeTag seqTag t, data := .sequence items s, start := e.start, stop := e'.stop } :: ns)
  | map {A n e e' a t i s w ids pairs A' ns} : e.data = .mappingStart a t i s → e'.data = .mappingEnd → Unbound A a →
      Rep .pairs (bindAnchor A a (n + 1)) (n + 1) w ids A' ns → ids = pairs.flatMap (fun p => [p.1, p.2]) →
      Rep .node A n (e :: w ++ [e']) [n + 1] A'
        ({ tag := nodeTag mapTag t, data := .mapping pairs s, start := e.start, stop := e'.stop } :: ns)
  | nodesNil {A n} : Rep .nodes A n [] [] A []
  | nodesCons {A n v is A1 ns w js A2 ms} : Rep .node A n v is A1 ns → Rep .nodes A1 (n + ns.length) w js A2 ms →
      Rep .nodes A n (v ++ w) (is ++ js) A2 (ns ++ ms)
  | pairsNil {A n} : Rep .pairs A n [] [] A []
  | pairsCons {A n u ks A1 ns v vs A2 ms w js A3 os} : Rep .node A n u ks A1 ns →
      Rep .node A1 (n + ns.length) v vs A2 ms → Rep .pairs A2 (n + ns.length + ms.length) w js A3 os →
      Rep .pairs A n (u ++ (v ++ w)) (ks ++ (vs ++ js)) A3 (ns ++ (ms ++ os))

/-- The document represents the events of one document: anchors start unbound, the root is node 1. -/
def RepDoc (w : List Event) (d : Doc) : Prop :=
  ∃ es body ee A, w = es :: body ++ [ee] ∧ es.data = .documentStart d.version d.tags d.startImplicit ∧ d.start = es.start ∧
    ee.data = .documentEnd d.endImplicit ∧ d.stop = ee.stop ∧ Rep .node [] 0 body [1] A d.nodes

end LibYaml.Spec
