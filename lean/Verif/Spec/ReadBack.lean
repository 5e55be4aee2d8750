import Verif.Spec.Compose

/-!
# Specification: anchors, and reading a document back

Stated on events and node lists only, without reference to the loader or to `Rep`.
-/

namespace LibYaml.Spec

open LibYaml (EvData Event Text Node NodeData Doc ScalarStyle CollStyle Mark Fail)

/-- The anchor an event gives to a node. -/
def anchorOf : EvData → Option Text
  | .scalar a .. => a
  | .sequenceStart a .. => a
  | .mappingStart a .. => a
  | _ => none

/-- The event starts a node of its own. -/
def startsNode : EvData → Bool
  | .scalar .. | .sequenceStart .. | .mappingStart .. => true
  | _ => false

/-- The anchors given by a list of events with the numbers of their nodes, when `n` nodes came before. -/
def bindings (n : Nat) : List EvData → List (Text × Nat)
  | [] => []
  | e :: w =>
    let n' := if startsNode e then n + 1 else n
    match anchorOf e with
    | none => bindings n' w
    | some a => (a, n') :: bindings n' w

/-- The first fault with anchors: an alias whose anchor no earlier node of the document has, or an anchor some earlier
node has already. `seen`: anchors with the start marks of their nodes. -/
def anchorFault (seen : List (Text × Mark)) : List Event → Option Fail
  | [] => none
  | e :: w =>
    match e.data with
    | .alias a =>
      if seen.any (fun p => p.1 == a) then anchorFault seen w
      else some (.composer none {} "found undefined alias" e.start)
    | d =>
      match anchorOf d with
      | none => anchorFault seen w
      | some a =>
        match seen.find? (fun p => p.1 == a) with
        | some p => some (.composer (some "found duplicate anchor; first occurrence") p.2 "second occurrence" e.start)
        | none => anchorFault (seen ++ [(a, e.start)]) w

/-- What can be read off a document, in the order of the events. -/
inductive Shape
  | alias (node : Nat)
  | scalar (tag value : Text) (style : ScalarStyle)
  | seqStart (tag : Text) (style : CollStyle)
  | seqEnd
  | mapStart (tag : Text) (style : CollStyle)
  | mapEnd
  deriving DecidableEq, Repr

/-- The shapes of events; aliases are resolved by the bindings `A` of the whole document. -/
def shapes (A : List (Text × Nat)) : List EvData → Option (List Shape)
  | [] => some []
  | e :: w =>
    match shapes A w with
    | none => none
    | some r =>
      match e with
      | .alias a =>
        match A.find? (fun p => p.1 == a) with
        | some p => some (.alias p.2 :: r)
        | none => none
      | .scalar _ t v _ _ s => some (.scalar (nodeTag strTag t) v s :: r)
      | .sequenceStart _ t _ s => some (.seqStart (nodeTag seqTag t) s :: r)
      | .sequenceEnd => some (.seqEnd :: r)
      | .mappingStart _ t _ s => some (.mapStart (nodeTag mapTag t) s :: r)
      | .mappingEnd => some (.mapEnd :: r)
      | _ => none

/-- Read the nodes `ids` one after the other, when the nodes `1 … n` have been read already: a node read before is an
alias, a new node must be node `n+1` and is read with all its children. Returns also the number of nodes read. The first
argument bounds the depth of the recursion. -/
def readBack (nodes : List Node) : Nat → Nat → List Nat → Option (List Shape × Nat)
  | _, n, [] => some ([], n)
  | 0, _, _ :: _ => none
  | fuel + 1, n, i :: is =>
    if 0 < i ∧ i ≤ n then
      match readBack nodes fuel n is with
      | some (r, n') => some (.alias i :: r, n')
      | none => none
    else if i = n + 1 then
      match nodes[n]? with
      | none => none
      | some nd =>
        match nd.data with
        | .scalar v s =>
          match readBack nodes fuel (n + 1) is with
          | some (r, n') => some (.scalar nd.tag v s :: r, n')
          | none => none
        | .sequence items s =>
          match readBack nodes fuel (n + 1) items with
          | none => none
          | some (c, n1) =>
            match readBack nodes fuel n1 is with
            | some (r, n') => some (.seqStart nd.tag s :: c ++ .seqEnd :: r, n')
            | none => none
        | .mapping pairs s =>
          match readBack nodes fuel (n + 1) (pairs.flatMap fun p => [p.1, p.2]) with
          | none => none
          | some (c, n1) =>
            match readBack nodes fuel n1 is with
            | some (r, n') => some (.mapStart nd.tag s :: c ++ .mapEnd :: r, n')
            | none => none
    else none

end LibYaml.Spec
