import Verif.Model.LoaderHeap

/-!
# What loading does, apart from memory

The document that `yaml_parser_load` composes from the events that the parser delivers, if nothing but the events decides.
-/

namespace LibYaml.Spec

/-- No limit on the number of nodes. -/
def roomy : Nat → Bool := fun _ => true

/-- Where the loader is in the stream: before STREAM-START, between documents, or in a document. -/
inductive Where
  | start
  | between
  | inside (s : CState)

/-- The events come in an order for which the loader is written: STREAM-START, then documents of balanced nodes, then STREAM-END. Nothing is said
about what follows a failure of the parser or an error of the composer. -/
def Legal : Where → Outcomes → Prop
  | _, [] => True
  | _, none :: _ => True
  | .start, some e :: es => (∃ n, e.data = .streamStart n) ∧ Legal .between es
  | .between, some e :: es => e.data = .streamEnd ∨ (∃ v ts i, e.data = .documentStart v ts i) ∧ Legal (.inside {}) es
  | .inside s, some e :: es =>
    match e.data with
    | .documentEnd _ => Legal .between es
    | _ =>
      match composeEvent roomy e s with
      | .ok s => Legal (.inside s) es
      | .error err => err ≠ .ub

/-- The nodes of a document, whether its end is implicit, where it ends, and the outcomes behind it; `none` if the parser or the composer fails. -/
def composed : Outcomes → CState → Option (CState × Bool × Mark × Outcomes)
  | [], _ => none
  | none :: _, _ => none
  | some e :: es, s =>
    match e.data with
    | .documentEnd i => some (s, i, e.stop, es)
    | _ =>
      match composeEvent roomy e s with
      | .ok s => composed es s
      | .error _ => none

/-- The next document; the empty document at the end of the stream. -/
def nextDoc : Outcomes → Option Doc
  | some e :: es =>
    match e.data with
    | .streamEnd => some Doc.empty
    | .documentStart version tags startImplicit => (composed es {}).map fun r =>
        { nodes := r.1.nodes, version, tags, startImplicit, endImplicit := r.2.1, start := e.start, stop := r.2.2.1 }
    | _ => none
  | _ => none

/-- The document that one call of `yaml_parser_load` returns. -/
def loadedDoc (p : HParser) : Option Doc :=
  if !p.started then
    match p.outcomes with
    | some _ :: es => nextDoc es
    | _ => none
  else if p.ended then some Doc.empty
  else nextDoc p.outcomes

/-- The parser and the events to come. -/
def Loadable (p : HParser) : Prop :=
  p.aliases = {} ∧ if !p.started then p.ended = false ∧ Legal .start p.outcomes else if p.ended then True else Legal .between p.outcomes

/-- The text of an anchor. -/
def AnchorText (t : Text) : Prop := ∀ c ∈ t, 0 < c ∧ c < 0x80

/-- Anchors are ASCII and tags have no NUL. -/
def Stringy : EvData → Prop
  | .alias a => AnchorText a
  | .scalar a t _ _ _ _ => (∀ x ∈ a, AnchorText x) ∧ ∀ x ∈ t, CText x
  | .sequenceStart a t _ _ => (∀ x ∈ a, AnchorText x) ∧ ∀ x ∈ t, CText x
  | .mappingStart a t _ _ => (∀ x ∈ a, AnchorText x) ∧ ∀ x ∈ t, CText x
  | _ => True

end LibYaml.Spec
