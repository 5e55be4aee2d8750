import Verif.Spec.TokenGrammar
import Verif.Spec.EmitEvents
import Verif.Spec.Tags
import Verif.Spec.Octets
import Mathlib.Data.List.Forall2

/-!
# Specification: events that mean the same

The emitter chooses among the styles of YAML and leaves out tags that need not be written, so that an event that is
written and read back may look different. `Alike e e'` says what must not change. The flags of `e'` are those the
parser reports: a tag may only be missing when the event allowed this, and then the event that is read allows it too.
-/

namespace LibYaml.Spec

open LibYaml (EvData Text TagDir lit)

/-- The tag of a scalar that is read back. It is left out only where the event permitted this (`p` for the plain style,
`q` for the others), and `!` stands in when the scalar was to be plain but cannot be written so. -/
def ScalarTag (t : Option Text) (p q : Bool) (t' : Option Text) (p' q' : Bool) : Prop :=
  (t' = t ∧ t ≠ none) ∨ (t' = none ∧ ((p = true ∧ p' = true) ∨ (q = true ∧ q' = true))) ∨
    (t' = some (lit ['!']) ∧ p = true ∧ p' = true)

/-- The tag of a collection that is read back. -/
def CollTag (t : Option Text) (i : Bool) (t' : Option Text) (i' : Bool) : Prop :=
  (t' = t ∧ t ≠ none) ∨ (t' = none ∧ i' = true ∧ (i = true ∨ t = none))

/-- The same event up to the style, the encoding, the markers of documents, and tags that need not be written. -/
inductive Alike : EvData → EvData → Prop
  | streamStart (e e') : Alike (.streamStart e) (.streamStart e')
  | streamEnd : Alike .streamEnd .streamEnd
  | documentStart (v ts i i') : Alike (.documentStart v ts i) (.documentStart v ts i')
  | documentEnd (i i') : Alike (.documentEnd i) (.documentEnd i')
  | alias (a) : Alike (.alias a) (.alias a)
  | scalar (a v s s') {t p q t' p' q'} : ScalarTag t p q t' p' q' → Alike (.scalar a t v p q s) (.scalar a t' v p' q' s')
  | sequenceStart (a s s') {t i t' i'} : CollTag t i t' i' → Alike (.sequenceStart a t i s) (.sequenceStart a t' i' s')
  | sequenceEnd : Alike .sequenceEnd .sequenceEnd
  | mappingStart (a s s') {t i t' i'} : CollTag t i t' i' → Alike (.mappingStart a t i s) (.mappingStart a t' i' s')
  | mappingEnd : Alike .mappingEnd .mappingEnd

/-- How many more collections are open behind the events than in front of them. -/
def level : List EvData → Int
  | [] => 0
  | .sequenceStart .. :: es => level es + 1
  | .mappingStart .. :: es => level es + 1
  | .sequenceEnd :: es => level es - 1
  | .mappingEnd :: es => level es - 1
  | _ :: es => level es

/-- Collections are nested at least this deep somewhere in the events. -/
def Deep (h : Nat) (es : List EvData) : Prop := ∃ p, p <+: es ∧ (h : Int) ≤ level p

/-! ### What is left out

The emitter writes some events so that they are not read back as they were. These are excluded from the round trip; each
exclusion is accompanied by a theorem that it is necessary. -/

/-- A Unicode scalar value. -/
def UChar (c : Nat) : Prop := c ≤ 0x10FFFF ∧ ¬ (0xD800 ≤ c ∧ c ≤ 0xDFFF)

/-- A tag with a part behind a prefix in which there is a comma or a bracket is written so that it is not read back. -/
def TagWritable (T : List TagDir) (t : Option Text) : Prop :=
  ∀ x, t = some x → (∀ c ∈ x, Storable c ∧ c ≠ 0) ∧
    ∀ d ∈ T ++ predeclared, ∀ r, x = d.pfx ++ r → ∀ c ∈ r, c ≠ 0x2C ∧ c ≠ 0x5B ∧ c ≠ 0x5D

/-- A character that ends a line. -/
def EndsLines (c : Nat) : Prop := c = 0x0A ∨ c = 0x0D ∨ c = 0x85 ∨ c = 0x2028 ∨ c = 0x2029

/-- A line begins with a space or tab and has, further on, a space that no other space follows. The emitter may fold the line there. -/
def FoldableIndented (v : Text) : Prop :=
  ∃ b l r, (b = 0x20 ∨ b = 0x09) ∧ (∀ c ∈ l, ¬ EndsLines c) ∧ r.head? ≠ some 0x20 ∧
    (v = b :: (l ++ 0x20 :: r) ∨ ∃ a c, EndsLines c ∧ v = a ++ c :: b :: (l ++ 0x20 :: r))

/-- The event can be written in a document with the directives `T`. -/
def Writable (T : List TagDir) : EvData → Prop
  | .scalar _ t v _ _ st => TagWritable T t ∧ (∀ c ∈ v, UChar c) ∧ (st = .folded → ¬ FoldableIndented v)
  | .sequenceStart _ t _ _ => TagWritable T t
  | .mappingStart _ t _ _ => TagWritable T t
  | .documentStart _ ts _ => ∀ d ∈ ts, ∀ c ∈ d.pfx, Storable c ∧ c ≠ 0
  | _ => True

/-- The event stands in a document with the directives `T`, or begins it. -/
def Under (w : List EvData) (T : List TagDir) (e : EvData) : Prop :=
  ∃ a v i r, w = a ++ .documentStart v T i :: r ∧ (e = .documentStart v T i ∨ ∃ b c, r = b ++ e :: c ∧ ∀ j, .documentEnd j ∉ b)

/-- The first document has no marker and its root is a scalar that is written as nothing. -/
def Vanishes (w : List EvData) : Prop :=
  ∃ enc t q st r, (st = .any ∨ st = .plain) ∧ w = .streamStart enc :: .documentStart none [] true :: .scalar none t [] true q st :: r

/-- The stream can be written and read back; `canonical` is the setting of the emitter. -/
structure Readable (canonical : Bool) (w : List EvData) : Prop where
  stream : GStream w
  good : ∀ e ∈ w, GoodEvent canonical e
  writable : ∀ T e, Under w T e → Writable T e
  root : canonical = false → ¬ Vanishes w

end LibYaml.Spec
