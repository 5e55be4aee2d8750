import Verif.Spec.Positions

/-!
# Where errors of the parser point

An error of the parser is found at the token that comes next, and its problem mark is the start of this token; only an
undefined tag handle is reported at the tag itself. The context mark is where the thing begins in which the error was
found: the first token of the node with its properties, or the token that opened the innermost collection.

Only `Token` and its parts are used from the model.
-/

namespace LibYaml.Spec

/-- The brackets and the token that ends an indented collection. -/
def closesColl : TokData → Bool
  | .blockEnd | .flowSequenceEnd | .flowMappingEnd => true
  | _ => false

/-- Collections are opened and closed by their tokens. -/
def openStep (st : List Token) (t : Token) : List Token :=
  if opensColl t.data then t :: st else if closesColl t.data then st.tail else st

/-- The tokens that opened the collections that are still open, the innermost first. -/
def openColls (T : List Token) : List Token := T.foldl openStep []

/-- With the tokens `T` taken and `t` next, this is a right report of an error: context, its mark, problem, its mark. -/
inductive ErrorAt (T : List Token) (t : Token) : Option String → Mark → String → Mark → Prop
  /-- No context. -/
  | plain {problem : String} : ErrorAt T t none {} problem t.start
  /-- In a node: from its first property, if it has any. -/
  | node {A ps : List Token} {f : Token} {context problem : String} (hT : T = A ++ ps) (hp : PropToks ps)
      (hf : (ps ++ [t]).head? = some f)
      (hc : context ∈ ["while parsing a block node", "while parsing a flow node", "while parsing"]) :
      ErrorAt T t (some context) f.start problem t.start
  /-- A tag with an undefined handle. -/
  | tag {A ps : List Token} {f u : Token} {handle suffix : Text} (hT : T = A ++ ps) (hp : PropToks ps)
      (hf : ps.head? = some f) (hu : u ∈ ps) (hd : u.data = .tag handle suffix) :
      ErrorAt T t (some "while parsing a node") f.start "found undefined tag handle" u.start
  /-- In a collection: from the token that opened the innermost one. -/
  | collection {o : Token} {r : List Token} {context problem : String} (ho : openColls T = o :: r)
      (hc : context ∈ ["while parsing a block collection", "while parsing a block mapping", "while parsing a flow sequence",
        "while parsing a flow mapping"]) :
      ErrorAt T t (some context) o.start problem t.start

/-- The anchor that an event gives to its node. -/
def anchorGiven : EvData → Option Text
  | .scalar a .. => a
  | .sequenceStart a .. => a
  | .mappingStart a .. => a
  | _ => none

/-- Events of nodes. -/
def ofNode : EvData → Bool
  | .alias _ | .scalar .. | .sequenceStart .. | .sequenceEnd | .mappingStart .. | .mappingEnd => true
  | _ => false

/-- After the events `w` of a document the loader rejects the event `e`, and this is a right report: an alias to an anchor
not given before, or an anchor given before, with the event that gave it as context. -/
inductive ComposeErr (w : List Event) (e : Event) : Option String → Mark → String → Mark → Prop
  | undefined {a : Text} (he : e.data = .alias a) (hn : ∀ d ∈ w, anchorGiven d.data ≠ some a) :
      ComposeErr w e none {} "found undefined alias" e.start
  | duplicate {a : Text} {d : Event} (he : anchorGiven e.data = some a) (hd : d ∈ w) (ha : anchorGiven d.data = some a) :
      ComposeErr w e (some "found duplicate anchor; first occurrence") d.start "second occurrence" e.start

end LibYaml.Spec
