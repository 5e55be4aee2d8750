import Verif.Model.Types

/-!
# Specification: directives and tags

What the directives of a token sequence mean, written as a walk over the tokens and without a parser: the directives of
a document are those after the content of the previous document and before the document's `---`.
-/

namespace LibYaml.Spec

open LibYaml (TokData EvData TagDir Version Text lit)

/-- The handles every document knows (YAML 1.1 section 6.8.2): `!` and `!!`. -/
def predeclared : List TagDir :=
  [⟨lit ['!'], lit ['!']⟩,
   ⟨lit ['!', '!'], lit ['t','a','g',':','y','a','m','l','.','o','r','g',',','2','0','0','2',':']⟩]

/-- The tag written as `handle` and `suffix` in a document with the given `%TAG` directives: directives of the document
win over the predeclared ones; an empty handle means that the suffix is the whole tag. -/
def expand (declared : List TagDir) (handle suffix : Text) : Option Text :=
  if handle = [] then some suffix
  else ((declared ++ predeclared).find? fun d => d.handle == handle).map fun d => d.pfx ++ suffix

/-- What a consumer sees of directives and tags: an explicit document with its directives, a node's tag. -/
inductive Item
  | doc (version : Option Version) (tags : List TagDir)
  | tag (t : Text)
  deriving DecidableEq, Repr

/-- State of the walk: the directives collected, whether their document has begun, and the items seen. -/
structure Walk where
  version : Option Version := none
  tags : List TagDir := []
  opened : Bool := false
  items : List Item := []
  deriving DecidableEq, Repr

/-- Forget the directives of a document that is over. -/
def Walk.fresh (w : Walk) : Walk := if w.opened then { items := w.items } else w

/-- One token; `none` means that the token is an error here. -/
def Walk.step (w : Walk) : TokData → Option Walk
  | .versionDirective v =>
    let w := w.fresh
    if w.version.isSome then none
    else if v = ⟨1, 1⟩ ∨ v = ⟨1, 2⟩ then some { w with version := some v }
    else none
  | .tagDirective d =>
    let w := w.fresh
    if ∃ e ∈ w.tags, e.handle = d.handle then none else some { w with tags := w.tags ++ [d] }
  | .documentStart =>
    let w := w.fresh
    some { w with opened := true, items := w.items ++ [.doc w.version w.tags] }
  | .documentEnd => some { items := w.items }
  | .tag h s => (expand w.tags h s).map fun t => { w with items := w.items ++ [.tag t] }
  | _ => some w

/-- A token sequence. -/
def Walk.run : Walk → List TokData → Option Walk
  | w, [] => some w
  | w, t :: ts => (w.step t).bind fun w => w.run ts

/-- What an event shows of directives and tags. -/
def itemOf : EvData → List Item
  | .documentStart v ts false => [.doc v ts]
  | .scalar _ (some t) _ _ _ _ => [.tag t]
  | .sequenceStart _ (some t) _ _ => [.tag t]
  | .mappingStart _ (some t) _ _ => [.tag t]
  | _ => []

end LibYaml.Spec
