import Verif.Spec.Tags

/-!
# Specification: the grammar of tokens and the events it stands for (`src/parser.c:4-38`)

The grammar in the comment at the top of `parser.c`, as a relation between a token sequence and the events it means.
Nothing here looks ahead or keeps a state: a production relates the tokens it covers to their events.

Three versions are kept apart, because the code differs from the comment in two productions.

* `documented`: the comment, word for word.
* `implemented`: what the code does. A block mapping entry needs its KEY. An entry of a flow sequence with an empty key
  is `KEY` in front of the closing bracket, or `KEY (VALUE | FLOW-ENTRY) (VALUE flow_node?)?`.
* `common`: the productions the two share.
-/

namespace LibYaml.Spec

open LibYaml (TokData EvData TagDir Version Text lit ScalarStyle CollStyle)

/-- Which grammar. -/
inductive Variant | documented | implemented | common
  deriving DecidableEq, Repr

/-- The event of a node that is not there. -/
def absent : EvData := .scalar none none [] true false .plain

/-- A collection or an empty scalar may do without a tag: none was written, or an empty one. -/
def untagged (tag : Option Text) : Bool := tag.isNone || tag == some []

/-- `properties?`: anchor and tag in any order, the tag expanded by the directives of the document. -/
inductive Properties (tags : List TagDir) : List TokData → Option Text → Option Text → Prop
  | none : Properties tags [] none none
  | anchor (a) : Properties tags [.anchor a] (some a) none
  | tag {h s t} : expand tags h s = some t → Properties tags [.tag h s] none (some t)
  | anchorTag {a h s t} : expand tags h s = some t → Properties tags [.anchor a, .tag h s] (some a) (some t)
  | tagAnchor {a h s t} : expand tags h s = some t → Properties tags [.tag h s, .anchor a] (some a) (some t)

/-- A plain scalar without tag, and any scalar with the tag `!`, may be written plain without its tag. -/
def plainOk (tag : Option Text) (style : ScalarStyle) : Bool :=
  (style == .plain && tag.isNone) || tag == some (lit ['!'])

/-- A scalar in another style without tag may be written quoted without its tag. -/
def quotedOk (tag : Option Text) (style : ScalarStyle) : Bool := style != .plain && tag.isNone

/-- Nonterminals. In `node block indentless`: `flow_node` is `node false false`, `block_node` is `node true false`,
`block_node_or_indentless_sequence` is `node true true`. `opt` is the same with a question mark. `value` is
`(VALUE node?)?`. `blockEntries` is `(BLOCK-ENTRY block_node?)*`, `blockPairs` the inside of a block mapping, `flowItems`
and `flowPairs` the inside of a flow sequence and mapping, `flowItem` and `flowPair` one entry. -/
inductive Nt
  | node (block indentless : Bool)
  | opt (block indentless : Bool)
  | value (block indentless : Bool)
  | blockEntries | blockPairs | flowItems | flowItem | flowPairs | flowPair
  deriving DecidableEq, Repr

/-- The productions below a document. -/
inductive Gram (v : Variant) (tags : List TagDir) : Nt → List TokData → List EvData → Prop
  -- nodes
  | alias {b i} (a) : Gram v tags (.node b i) [.alias a] [.alias a]
  | scalar {b i p a t} (x : Text) (style) : Properties tags p a t →
      Gram v tags (.node b i) (p ++ [.scalar x style]) [.scalar a t x (plainOk t style) (quotedOk t style) style]
  | empty {b i p a t} : Properties tags p a t → p ≠ [] →
      Gram v tags (.node b i) p [.scalar a t [] (untagged t) false .plain]
  | flowSequence {b i p a t w e} : Properties tags p a t → Gram v tags .flowItems w e →
      Gram v tags (.node b i) (p ++ .flowSequenceStart :: w ++ [.flowSequenceEnd])
        (.sequenceStart a t (untagged t) .flow :: e ++ [.sequenceEnd])
  | flowMapping {b i p a t w e} : Properties tags p a t → Gram v tags .flowPairs w e →
      Gram v tags (.node b i) (p ++ .flowMappingStart :: w ++ [.flowMappingEnd])
        (.mappingStart a t (untagged t) .flow :: e ++ [.mappingEnd])
  | blockSequence {i p a t w e} : Properties tags p a t → Gram v tags .blockEntries w e →
      Gram v tags (.node true i) (p ++ .blockSequenceStart :: w ++ [.blockEnd])
        (.sequenceStart a t (untagged t) .block :: e ++ [.sequenceEnd])
  | blockMapping {i p a t w e} : Properties tags p a t → Gram v tags .blockPairs w e →
      Gram v tags (.node true i) (p ++ .blockMappingStart :: w ++ [.blockEnd])
        (.mappingStart a t (untagged t) .block :: e ++ [.mappingEnd])
  | indentless {b p a t w e} : Properties tags p a t → Gram v tags .blockEntries w e → w ≠ [] →
      Gram v tags (.node b true) (p ++ w) (.sequenceStart a t (untagged t) .block :: e ++ [.sequenceEnd])
  -- optional nodes and values
  | missing {b i} : Gram v tags (.opt b i) [] [absent]
  | present {b i w e} : Gram v tags (.node b i) w e → Gram v tags (.opt b i) w e
  | noValue {b i} : Gram v tags (.value b i) [] [absent]
  | value {b i w e} : Gram v tags (.opt b i) w e → Gram v tags (.value b i) (.value :: w) e
  -- block collections
  | entriesNil : Gram v tags .blockEntries [] []
  | entriesCons {w e w' e'} : Gram v tags (.opt true false) w e → Gram v tags .blockEntries w' e' →
      Gram v tags .blockEntries (.blockEntry :: w ++ w') (e ++ e')
  | pairsNil : Gram v tags .blockPairs [] []
  | pairsCons {k ek x ex w e} : Gram v tags (.opt true true) k ek → Gram v tags (.value true true) x ex →
      Gram v tags .blockPairs w e → Gram v tags .blockPairs (.key :: k ++ x ++ w) (ek ++ ex ++ e)
  | pairsValue {x ex w e} : v = .documented → Gram v tags (.opt true true) x ex →
      Gram v tags .blockPairs w e → Gram v tags .blockPairs (.value :: x ++ w) (absent :: ex ++ e)
  -- flow sequences
  | itemsNil : Gram v tags .flowItems [] []
  | itemsOne {w e} : Gram v tags .flowItem w e → Gram v tags .flowItems w e
  | itemsCons {w e w' e'} : Gram v tags .flowItem w e → Gram v tags .flowItems w' e' →
      Gram v tags .flowItems (w ++ .flowEntry :: w') (e ++ e')
  | itemsEmptyKey : v = .implemented →
      Gram v tags .flowItems [.key] [.mappingStart none none true .flow, absent, absent, .mappingEnd]
  | item {w e} : Gram v tags (.node false false) w e → Gram v tags .flowItem w e
  | itemPair {k ek x ex} : Gram v tags (.node false false) k ek → Gram v tags (.value false false) x ex →
      Gram v tags .flowItem (.key :: k ++ x) (.mappingStart none none true .flow :: ek ++ ex ++ [.mappingEnd])
  | itemPairNoKey {x ex} : v = .documented → Gram v tags (.value false false) x ex →
      Gram v tags .flowItem (.key :: x) (.mappingStart none none true .flow :: absent :: ex ++ [.mappingEnd])
  | itemPairLost {d x ex} : v = .implemented → d = .value ∨ d = .flowEntry → Gram v tags (.value false false) x ex →
      Gram v tags .flowItem (.key :: d :: x) (.mappingStart none none true .flow :: absent :: ex ++ [.mappingEnd])
  -- flow mappings
  | fpairsNil : Gram v tags .flowPairs [] []
  | fpairsOne {w e} : Gram v tags .flowPair w e → Gram v tags .flowPairs w e
  | fpairsCons {w e w' e'} : Gram v tags .flowPair w e → Gram v tags .flowPairs w' e' →
      Gram v tags .flowPairs (w ++ .flowEntry :: w') (e ++ e')
  | pairKey {w e} : Gram v tags (.node false false) w e → Gram v tags .flowPair w (e ++ [absent])
  | pair {k ek x ex} : Gram v tags (.opt false false) k ek → Gram v tags (.value false false) x ex →
      Gram v tags .flowPair (.key :: k ++ x) (ek ++ ex)

/-- The versions and the tag directives among tokens. -/
def versionsOf (ds : List TokData) : List Version := ds.filterMap fun | .versionDirective v => some v | _ => none
def tagsOf (ds : List TokData) : List TagDir := ds.filterMap fun | .tagDirective t => some t | _ => none

/-- `DIRECTIVE*`: at most one `%YAML`, of version 1.1 or 1.2, and `%TAG` directives with different handles. -/
def Directives (ds : List TokData) (version : Option Version) (tags : List TagDir) : Prop :=
  (∀ d ∈ ds, (∃ v, d = .versionDirective v) ∨ ∃ t, d = .tagDirective t) ∧
  versionsOf ds = version.toList ∧
  (∀ v, version = some v → v = ⟨1, 1⟩ ∨ v = ⟨1, 2⟩) ∧
  tagsOf ds = tags ∧
  (tags.map fun t => t.handle).Nodup

/-- `explicit_document* STREAM-END` -/
inductive Docs (v : Variant) : List TokData → List EvData → Prop
  | done : Docs v [.streamEnd] [.streamEnd]
  | doc {ds version tags n en r er} (k : Nat) : Directives ds version tags → Gram v tags (.opt true false) n en →
      Docs v r er →
      Docs v (ds ++ .documentStart :: n ++ List.replicate k .documentEnd ++ r)
        (.documentStart version tags false :: en ++ .documentEnd (k == 0) :: er)

/-- `stream` -/
inductive Stream (v : Variant) : List TokData → List EvData → Prop
  | explicit {r er} (enc) : Docs v r er → Stream v (.streamStart enc :: r) (.streamStart (some enc) :: er)
  | implicit {n en r er} (enc) (k : Nat) : Gram v [] (.node true false) n en → Docs v r er →
      Stream v (.streamStart enc :: n ++ List.replicate k .documentEnd ++ r)
        (.streamStart (some enc) :: .documentStart none [] true :: en ++ .documentEnd (k == 0) :: er)

end LibYaml.Spec
