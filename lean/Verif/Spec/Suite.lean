import Verif.Model.Suite

/-!
# What the lines of the test suite stand for

A line stands for an event with its anchor, tag, style and value. From the model only `EvData`, `SuiteCall` and `FlowOpt` and the names of characters (`ch`) are used.
-/

namespace LibYaml.Spec

/-- The style of a collection printed with one option and read with another. -/
def flowStyle (printed read : FlowOpt) (style : CollStyle) : CollStyle :=
  match read, printed, style with
  | .on, _, _ => .flow
  | .off, _, _ => .block
  | .keep, .on, _ => .flow
  | .keep, .keep, .flow => .flow
  | .keep, _, _ => .block

/-- The constructor that should be called for an event: the directives of a document are not in the notation; a tag of a scalar is always
to be written, and of a collection too. -/
def rightCall (printed read : FlowOpt) : EvData → SuiteCall
  | .streamStart _ => .streamStart
  | .streamEnd => .streamEnd
  | .documentStart _ _ i => .documentStart i
  | .documentEnd i => .documentEnd i
  | .mappingStart a t _ s => .mappingStart (a.map utf8s) (t.map utf8s) (flowStyle printed read s)
  | .mappingEnd => .mappingEnd
  | .sequenceStart a t _ s => .sequenceStart (a.map utf8s) (t.map utf8s) (flowStyle printed read s)
  | .sequenceEnd => .sequenceEnd
  | .scalar a t v _ _ s => .scalar (a.map utf8s) (t.map utf8s) (utf8s v) t.isNone s
  | .alias a => .alias (some (utf8s a))

/-- A name or a tag without NUL, line break, space and angle brackets. -/
def CleanName (t : Text) : Prop := ∀ c ∈ t, c < 0x110000 ∧ c ≠ 0 ∧ c ≠ 10 ∧ c ≠ 0x20 ∧ c ≠ 0x3C ∧ c ≠ 0x3E

/-- Anchors and tags of the event are clean; values are text. -/
def CleanEvent : EvData → Prop
  | .mappingStart a t _ _ | .sequenceStart a t _ _ => (∀ x, a = some x → CleanName x) ∧ ∀ x, t = some x → CleanName x
  | .scalar a t v _ _ _ => ((∀ x, a = some x → CleanName x) ∧ ∀ x, t = some x → CleanName x) ∧ ∀ c ∈ v, c < 0x110000
  | .alias a => CleanName a
  | _ => True

/-- Anchor and tag fit into the buffers, and without an anchor there is no `&` in the tag. -/
def PropsFit (a t : Option Text) : Prop :=
  (∀ x, a = some x → (utf8s x).length < 256) ∧ (∀ x, t = some x → (utf8s x).length < 256) ∧ (a = none → ∀ x, t = some x → 0x26 ∉ x)

/-- When the line of an event is read right, apart from its length: anchor and tag fit into the buffers; without an anchor there is no `&`, without a tag not both `<` and `>`,
where the `>` may also be the sign for the folded style; and there is no NUL in the value. -/
def ReadsBack : EvData → Prop
  | .mappingStart a t _ _ | .sequenceStart a t _ _ => PropsFit a t
  | .scalar a t v _ _ s =>
    PropsFit a t ∧ (a = none → 0x26 ∉ v) ∧ (t = none → ¬ (0x3C ∈ v ∧ (0x3E ∈ v ∨ s = .folded))) ∧ 0 ∉ v
  | .alias a => (utf8s a).length < 256
  | _ => True

end LibYaml.Spec
