import Verif.Model.Parser
import Verif.Spec.LoaderHeap

/-!
# Specification of the parser on the heap

C strings end at the first NUL. A tag may contain one (`%00`), although nothing behind it is ever seen through the API. `cutTok` and `cutEvent` remove
what is behind the first NUL of anchors, tags and directives.
-/

namespace LibYaml.Spec

def cutText (t : Text) : Text := t.takeWhile (· ≠ 0)

def cutDir (d : TagDir) : TagDir := ⟨cutText d.handle, cutText d.pfx⟩

def cutTok : TokData → TokData
  | .tagDirective d => .tagDirective (cutDir d)
  | .alias a => .alias (cutText a)
  | .anchor a => .anchor (cutText a)
  | .tag h s => .tag (cutText h) (cutText s)
  | d => d

def cutEvent : EvData → EvData
  | .documentStart v ts i => .documentStart v (ts.map cutDir) i
  | .alias a => .alias (cutText a)
  | .scalar a t v p q s => .scalar (a.map cutText) (t.map cutText) v p q s
  | .sequenceStart a t i s => .sequenceStart (a.map cutText) (t.map cutText) i s
  | .mappingStart a t i s => .mappingStart (a.map cutText) (t.map cutText) i s
  | e => e

variable {σ : Type}

/-- The tokens as the parser sees them. -/
def cutSrc (S : TokSrc σ) : TokSrc σ where
  next x :=
    match S.next x with
    | .error e => .error e
    | .ok (t, y) => .ok ({ t with data := cutTok t.data }, y)
  depth := S.depth

/-- Handles are ASCII, and the code points of tags and prefixes can be written in UTF-8. -/
def ReadableTok : TokData → Prop
  | .tagDirective d => AnchorText d.handle ∧ ∀ c ∈ d.pfx, Storable c
  | .tag h s => AnchorText h ∧ ∀ c ∈ s, Storable c
  | _ => True

/-- Handles, anchors and aliases are ASCII; tags and prefixes have no NUL; the values of scalars have characters only. -/
def CleanTok : TokData → Prop
  | .scalar v _ => ∀ c ∈ v, c < 0x110000
  | .tagDirective d => AnchorText d.handle ∧ CText d.pfx
  | .alias a => AnchorText a
  | .anchor a => AnchorText a
  | .tag h s => AnchorText h ∧ CText s
  | _ => True

/-- The states in which a source can be when it has started in `x`. -/
inductive SrcReach (S : TokSrc σ) (x : σ) : σ → Prop
  | refl : SrcReach S x x
  | step {y z t} : SrcReach S x y → S.next y = .ok (t, z) → SrcReach S x z

/-- All tokens that a source started in `x` delivers are readable. -/
def ReadableSrc (S : TokSrc σ) (x : σ) : Prop := ∀ y t z, SrcReach S x y → S.next y = .ok (t, z) → ReadableTok t.data

/-- All tokens that a source started in `x` delivers are clean. -/
def CleanSrc (S : TokSrc σ) (x : σ) : Prop := ∀ y t z, SrcReach S x y → S.next y = .ok (t, z) → CleanTok t.data

end LibYaml.Spec
