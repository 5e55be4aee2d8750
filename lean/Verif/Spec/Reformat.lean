import Verif.Model.Reformat
import Verif.Model.Parser
import Verif.Model.Emitter

/-!
# Reformatting, apart from memory
-/

namespace LibYaml.Spec

variable {ω : Type}

/-- What handing the outcomes of the parser to the emitter does: how it ends, and the output. `W` executes the writes of the emitter. -/
def reformatted (W : OutH ω) : List POut → Emitter → ω → REnd × ω
  | [], _, w => (.running, w)
  | .noEvent :: _, _, w => (.running, w)
  | .failed :: _, _, w => (.parser, w)
  | .event ev :: os, s, w =>
    match execOps (outEnv W) (emit ev.data s).ops w with
    | (some _, w') => (.emitter .writer, w')
    | (none, w') =>
      match (emit ev.data s).val with
      | .error x => (.emitter (.emitter x), w')
      | .ok () => if ev.data = .streamEnd then (.done, w') else reformatted W os (emit ev.data s).st w'

end LibYaml.Spec
