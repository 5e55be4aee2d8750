import Verif.Model.Convert
import Verif.Model.Loader
import Verif.Spec.Reread

/-!
# Loading and dumping, apart from memory
-/

namespace LibYaml.Spec

variable {τ : Type}

/-- What dumping the documents that are loaded does: how it ends, and the dumper. `emit` is the emitter as the dumper sees it. -/
def converted (emit : Event → τ → Bool × τ) (fuel : Nat) : List LOut → Dumper τ → Except Fail (CEnd × Dumper τ)
  | [], s => .ok (.running, s)
  | .failed :: _, s => .ok (.parser, s)
  | .doc d :: os, s =>
    match dump emit fuel d s with
    | .error e => .error e
    | .ok (false, s) => .ok (.emitter, s)
    | .ok (true, s) => if d.nodes = [] then .ok (.done, s) else converted emit fuel os s

/-- The document survives: no tag and no prefix of a directive is empty, no tag has a comma or a bracket behind a prefix, and no folded scalar has a line that
begins with a space or tab and can be folded at a space. Compare `Keepable`. -/
structure KeptDoc (d : Doc) : Prop where
  prefixes : ∀ t ∈ d.tags, t.pfx ≠ []
  tags : ∀ nd ∈ d.nodes, nd.tag ≠ []
  behind : ∀ nd ∈ d.nodes, ∀ t ∈ d.tags ++ predeclared, ∀ r, nd.tag = t.pfx ++ r → ∀ c ∈ r, c ≠ 0x2C ∧ c ≠ 0x5B ∧ c ≠ 0x5D
  folded : ∀ nd ∈ d.nodes, ∀ v, nd.data = .scalar v .folded → ¬ FoldableIndented v

end LibYaml.Spec
