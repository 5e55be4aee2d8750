import Verif.Model.Types
import Verif.Spec.Octets

/-!
# Events that can be read from a heap
-/

namespace LibYaml.Spec

/-- The strings of the event are C strings; the value of a scalar has characters only, but may have NULs. -/
def Legible : EvData → Prop
  | .documentStart _ ts _ => ∀ d ∈ ts, CText d.handle ∧ CText d.pfx
  | .alias a => CText a
  | .scalar a t v _ _ _ => (∀ x ∈ a, CText x) ∧ (∀ x ∈ t, CText x) ∧ ∀ c ∈ v, c < 0x200000
  | .sequenceStart a t _ _ => (∀ x ∈ a, CText x) ∧ ∀ x ∈ t, CText x
  | .mappingStart a t _ _ => (∀ x ∈ a, CText x) ∧ ∀ x ∈ t, CText x
  | _ => True

/-- The same for a document. -/
structure LegibleDoc (d : Doc) : Prop where
  directives : ∀ t ∈ d.tags, CText t.handle ∧ CText t.pfx
  tags : ∀ nd ∈ d.nodes, CText nd.tag
  values : ∀ nd ∈ d.nodes, ∀ v st, nd.data = .scalar v st → ∀ c ∈ v, c < 0x200000

example : Legible (.scalar (some [0x61]) none [0, 0xE9, 0x1F600] true true .double) := by
  refine ⟨?_, ?_, ?_⟩ <;> simp [CText, Storable]

end LibYaml.Spec
