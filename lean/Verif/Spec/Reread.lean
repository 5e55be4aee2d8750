import Verif.Spec.RoundTrip

/-!
# Specification: parsed events that survive being emitted

Not all that the parser delivers can be written by the emitter so that it is read back. `Keepable` excludes what cannot.
-/

namespace LibYaml.Spec

open LibYaml (EvData Text TagDir ScalarStyle Doc Node)

/-- The tag of the node that the event begins. -/
def tagOf : EvData → Option Text
  | .scalar _ t _ _ _ _ => t
  | .sequenceStart _ t _ _ => t
  | .mappingStart _ t _ _ => t
  | _ => none

/-- The events survive: no tag and no prefix of a `%TAG` directive is empty (which needs an escaped NUL, as in `!<%00>`), no tag has a comma or a bracket behind
a prefix (which needs a verbatim tag, an escape, or a directive), and no folded scalar has a line that begins with a
space or tab and can be folded at a space. -/
structure Keepable (w : List EvData) : Prop where
  prefixes : ∀ v ts i, .documentStart v ts i ∈ w → ∀ d ∈ ts, d.pfx ≠ []
  tags : ∀ e ∈ w, tagOf e ≠ some []
  behind : ∀ T e x, Under w T e → tagOf e = some x → ∀ d ∈ T ++ predeclared, ∀ r, x = d.pfx ++ r → ∀ c ∈ r, c ≠ 0x2C ∧ c ≠ 0x5B ∧ c ≠ 0x5D
  folded : ∀ a t v p q, .scalar a t v p q .folded ∈ w → ¬ FoldableIndented v

/-- The same document up to styles, positions and markers: version, tag directives, and node by node the tag, the contents and the ids of the children. -/
def SameLoaded (d d' : Doc) : Prop :=
  d.version = d'.version ∧ d.tags = d'.tags ∧ List.Forall₂ (fun a b : Node => a.tag = b.tag ∧ unstyled a.data = unstyled b.data) d.nodes d'.nodes

end LibYaml.Spec
