import Verif.Model.Types

/-!
# Positions of events

Where events lie, said by the tokens alone. Each event takes some tokens from the front of the stream. Those that are
its own (properties and content, document markers with their directives, closing brackets) give its start and its end:
the start of the first and the end of the last. Indicators before them (`-`, `?`, `:`, `,` and the opening of the
collection around) do not count. The token that opens a collection counts for the start event, but is taken by the next
event. An event without tokens of its own has no extent: it lies at the start of the next token, or, for an empty node
in block context, at the end of the indicator before it.

Only `Token`, `Event` and their parts are used from the model.
-/

namespace LibYaml.Spec

/-- An open collection: is it a mapping, and its style. -/
abbrev Coll := Bool × CollStyle

/-- The collections open after an event, the innermost first. -/
def collsAfter (c : List Coll) : EvData → List Coll
  | .sequenceStart _ _ _ style => (false, style) :: c
  | .mappingStart _ _ _ style => (true, style) :: c
  | .sequenceEnd => c.tail
  | .mappingEnd => c.tail
  | _ => c

/-- Is the innermost collection a flow collection? -/
def inFlow : List Coll → Bool
  | (_, .flow) :: _ => true
  | _ => false

/-- The brackets and the tokens that begin an indented collection. -/
def opensColl : TokData → Bool
  | .blockSequenceStart | .blockMappingStart | .flowSequenceStart | .flowMappingStart => true
  | _ => false

/-- Anchors and tags. -/
def isProperty : TokData → Bool
  | .anchor _ | .tag _ _ => true
  | _ => false

/-- `%YAML` and `%TAG`. -/
def isDirective : TokData → Bool
  | .versionDirective _ | .tagDirective _ => true
  | _ => false

/-- What the event just before leaves for the next one: nothing special; the token that opens the collection has still
to be taken; a mapping of one pair has been begun in a flow sequence; the stream is over. -/
inductive Stage
  | plain | opening | pair | over
  deriving DecidableEq

/-- What may come before the indicator of a node, or the end of a collection: the token that opens the collection, if that
has not been taken yet, and otherwise a comma in a flow collection. -/
def Lead (c : List Coll) (st : Stage) (a : List Token) : Prop :=
  a = [] ∨ ∃ t, a = [t] ∧ (st = .opening ∧ opensColl t.data = true ∨ st ≠ .opening ∧ inFlow c = true ∧ t.data = .flowEntry)

/-- `-`, `?` and `:`. -/
def isIndicator : TokData → Bool
  | .blockEntry | .key | .value => true
  | _ => false

/-- The tokens before a node: at most one indicator. In a flow sequence `?` is not among them: it begins a mapping of one
pair. -/
def Indicators (c : List Coll) (st : Stage) (g : List Token) : Prop :=
  ∃ a b, g = a ++ b ∧ Lead c st a ∧
    (b = [] ∨ ∃ t, b = [t] ∧ isIndicator t.data = true ∧ (c.head? = some (false, .flow) → t.data ≠ .key))

/-- At most one anchor and one tag. -/
def PropToks (ps : List Token) : Prop := (∀ t ∈ ps, isProperty t.data = true) ∧ ps.length ≤ 2

/-- The kind of collection that a token opens. -/
def Opening : TokData → EvData → Prop
  | .blockSequenceStart, .sequenceStart _ _ _ .block => True
  | .blockEntry, .sequenceStart _ _ _ .block => True
  | .blockMappingStart, .mappingStart _ _ _ .block => True
  | .flowSequenceStart, .sequenceStart _ _ _ .flow => True
  | .flowMappingStart, .mappingStart _ _ _ .flow => True
  | _, _ => False

/-- The tokens that close a collection. -/
def Closing : TokData → EvData → Prop
  | .blockEnd, .sequenceEnd => True
  | .flowSequenceEnd, .sequenceEnd => True
  | .blockEnd, .mappingEnd => True
  | .flowMappingEnd, .mappingEnd => True
  | _, _ => False

/-- An empty node. -/
def noNode : EvData := .scalar none none [] true false .plain

/-- `Placed c st T next e st'`: with the collections `c` open and after what `st` says, the event `e` takes the tokens
`T`, is followed by `next` (if that has been looked at), and lies where it should. -/
inductive Placed (c : List Coll) (st : Stage) : List Token → Option Token → Event → Stage → Prop
  | streamStart {t : Token} {enc : Enc} {nx : Option Token} (ht : t.data = .streamStart enc) :
      Placed c st [t] nx ⟨.streamStart (some enc), t.start, t.start⟩ .plain
  | streamEnd {ds : List Token} {t : Token} {nx : Option Token} (hd : ∀ d ∈ ds, d.data = .documentEnd) (ht : t.data = .streamEnd) :
      Placed c st (ds ++ [t]) nx ⟨.streamEnd, t.start, t.stop⟩ .over
  /-- A document that begins with its content. -/
  | documentStart {nx : Token} {v : Option Version} {tags : List TagDir} :
      Placed c st [] (some nx) ⟨.documentStart v tags true, nx.start, nx.start⟩ .plain
  /-- From the first directive, if there is one, to the end of `---`. -/
  | documentMarker {ds dirs : List Token} {t f : Token} {nx : Option Token} {v : Option Version} {tags : List TagDir}
      (hd : ∀ d ∈ ds, d.data = .documentEnd) (hr : ∀ d ∈ dirs, isDirective d.data = true) (ht : t.data = .documentStart)
      (hf : (dirs ++ [t]).head? = some f) :
      Placed c st (ds ++ (dirs ++ [t])) nx ⟨.documentStart v tags false, f.start, t.stop⟩ .plain
  | documentEnd {nx : Token} : Placed c st [] (some nx) ⟨.documentEnd true, nx.start, nx.start⟩ .plain
  | documentEndMarker {t : Token} {nx : Option Token} (ht : t.data = .documentEnd) :
      Placed c st [t] nx ⟨.documentEnd false, t.start, t.stop⟩ .plain
  | alias {g : List Token} {t : Token} {a : Text} {nx : Option Token} (hg : Indicators c st g) (ht : t.data = .alias a) :
      Placed c st (g ++ [t]) nx ⟨.alias a, t.start, t.stop⟩ .plain
  /-- From the first property, if there is one, to the end of the scalar. -/
  | scalar {g ps : List Token} {t f : Token} {an tag : Option Text} {v : Text} {pi qi : Bool} {style : ScalarStyle}
      {nx : Option Token} (hg : Indicators c st g) (hp : PropToks ps) (ht : t.data = .scalar v style)
      (hf : (ps ++ [t]).head? = some f) :
      Placed c st (g ++ (ps ++ [t])) nx ⟨.scalar an tag v pi qi style, f.start, t.stop⟩ .plain
  /-- Properties without content. -/
  | properties {g ps : List Token} {f l : Token} {an tag : Option Text} {pi qi : Bool} {nx : Option Token}
      (hg : Indicators c st g) (hp : PropToks ps) (hf : ps.head? = some f) (hl : ps.getLast? = some l) :
      Placed c st (g ++ ps) nx ⟨.scalar an tag [] pi qi .plain, f.start, l.stop⟩ .plain
  /-- From the first property, if there is one, to the end of the token that opens the collection. -/
  | collection {g ps : List Token} {t f : Token} {d : EvData} (hg : Indicators c st g) (hp : PropToks ps)
      (ht : Opening t.data d) (hf : (ps ++ [t]).head? = some f) :
      Placed c st (g ++ ps) (some t) ⟨d, f.start, t.stop⟩ .opening
  /-- A mapping of one pair in a flow sequence: at its `?`. -/
  | pair {g : List Token} {t : Token} {nx : Option Token} (hc : c.head? = some (false, .flow)) (hg : Lead c st g)
      (ht : t.data = .key) :
      Placed c st (g ++ [t]) nx ⟨.mappingStart none none true .flow, t.start, t.stop⟩ .pair
  | close {g : List Token} {t : Token} {d : EvData} {nx : Option Token} (hg : Lead c st g) (ht : Closing t.data d) :
      Placed c st (g ++ [t]) nx ⟨d, t.start, t.stop⟩ .plain
  /-- A sequence without indentation ends before the next token. -/
  | dedent {nx : Token} (hc : c.head? = some (false, .block)) :
      Placed c st [] (some nx) ⟨.sequenceEnd, nx.start, nx.start⟩ .plain
  /-- A mapping of one pair ends before the next token. -/
  | pairEnd {nx : Token} {c' : List Coll} (hc : c = (true, .flow) :: (false, .flow) :: c') :
      Placed c st [] (some nx) ⟨.mappingEnd, nx.start, nx.start⟩ .plain
  /-- Nothing where a node could be. -/
  | missing {nx : Token} : Placed c st [] (some nx) ⟨noNode, nx.start, nx.start⟩ .plain
  /-- Nothing after an indicator in block context: at the end of the indicator. -/
  | afterIndicator {g : List Token} {t : Token} {nx : Option Token} (hc : inFlow c = false) (hg : Lead c st g)
      (ht : isIndicator t.data = true) :
      Placed c st (g ++ [t]) nx ⟨noNode, t.stop, t.stop⟩ .plain
  /-- Nothing after an indicator in flow context: before the next token. -/
  | beforeNext {g : List Token} {nx : Token} (hc : inFlow c = true) (hs : st ≠ .pair) (hg : Indicators c st g) :
      Placed c st g (some nx) ⟨noNode, nx.start, nx.start⟩ .plain
  /-- No key in a mapping of one pair: the token after `?` is taken and the key lies at its end. -/
  | pairKey {t : Token} {nx : Option Token} (hs : st = .pair) (ht : t.data = .value ∨ t.data = .flowEntry) :
      Placed c st [t] nx ⟨noNode, t.stop, t.stop⟩ .plain

/-- `Laid c st ts es`: the events take the tokens `ts` from the front, one event after the other, and each lies where it
should. After the start of a collection the token that opens it is taken first. -/
inductive Laid : List Coll → Stage → List Token → List Event → Prop
  | nil {c st ts} : Laid c st ts []
  | cons {c st T rest e st' es} : st ≠ .over → Placed c st T rest.head? e st' →
      (st = .opening → ∃ t T', T = t :: T' ∧ (opensColl t.data = true ∨ t.data = .blockEntry)) →
      Laid (collsAfter c e.data) st' rest es → Laid c st (T ++ rest) (e :: es)

/-- Events follow one another: none ends before it starts or starts before the ones before it have ended. -/
def InLine (es : List Event) : Prop :=
  (∀ e ∈ es, e.start.index ≤ e.stop.index) ∧ es.Pairwise fun a b => a.stop.index ≤ b.start.index

end LibYaml.Spec
