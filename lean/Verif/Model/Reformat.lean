import Verif.Model.ParserHeap
import Verif.Model.EmitterHeap

/-!
# A client with a parser and an emitter

tests/example-reformatter.c: every event that the parser returns is handed to the emitter, until the stream ends. Parser and emitter live on one heap;
the strings of an event move from the one to the other. The reports on `stderr` are left out. After a failed initialization the C program
calls the two functions for deletion with objects that hold only null pointers (yaml_private.h:100-102, 431-433 and 464-466 set the pointers to null on the way);
they do nothing, and are left out.
-/

namespace LibYaml

variable {ρ ω : Type}

/-- How the main loop ends: at the end of the stream, because the parser fails, because the emitter fails, or not within the given number of rounds. -/
inductive REnd
  | done
  | parser
  | emitter (e : EErr)
  | running

/-- tests/example-reformatter.c:87-104: at most `n` rounds of the main loop. An event of no type would be handed to the emitter,
whose model has none; it counts as undefined here, so that the theorems show that it does not occur. -/
def reformatLoop (H : HSrc ρ) (W : OutH ω) (maxLevel : Int) (fuel : Nat) : Nat → HPar ρ → HEm ω → HM (REnd × HPar ρ × HEm ω)
  | 0, p, q => return (.running, p, q)
  | n + 1, p, q => do
    let (o, p) ← hParseCall H maxLevel fuel p
    match o with
    | .failed => return (.parser, p, q)
    | .noEvent => fun _ => .error .ub
    | .event e => do
      let (r, q) ← eEmit W e.data q
      match r with
      | .error x => return (.emitter x, p, q)
      | .ok () => if e.data = .streamEnd then return (.done, p, q) else reformatLoop H W maxLevel fuel n p q

/-- tests/example-reformatter.c:66-109 and 197-200: initialize, set parameters, reformat, delete. The result is how the loop ends, the parser as it was at
that time, and the state of the output. -/
def reformat (H : HSrc ρ) (W : OutH ω) (maxLevel : Int) (fuel n : Nat) (settings : Emitter) (w : ω) : HM (Option (REnd × HPar ρ × ω)) := do
  let (ok, p) ← hParserInit H
  if ok then do
    match ← emitterInit w with
    | none => do
      hParserDelete H p
      return none
    | some q => do
      let (r, p, q) ← reformatLoop H W maxLevel fuel n { st := p } { q with val := settings }
      hParserDelete H p.st
      emitterDelete q none
      return some (r, p, q.world)
  else return none

end LibYaml
