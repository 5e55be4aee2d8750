import Verif.Model.LoadParse
import Verif.Model.DumpSession

/-!
# A client with a parser and an emitter that handles documents

tests/example-reformatter-alt.c: every document that is loaded is dumped, until a document without nodes tells that the stream is over; that
one is dumped, too, and closes the emitter. Loader, parser, dumper and emitter live on one heap; the strings of the events move into the document, and
those of the document into events again. As in `Model/Reformat.lean` the reports on `stderr` and deletions of objects that hold only null pointers are left out.
-/

namespace LibYaml

variable {ρ ω : Type}

/-- How the main loop ends: with the stream, because a call of `yaml_parser_load` or of `yaml_emitter_dump` fails, or not within the given number of rounds. -/
inductive CEnd
  | done
  | parser
  | emitter
  | running
  deriving DecidableEq

/-- tests/example-reformatter-alt.c:87-104: at most `n` rounds of the main loop. `yaml_document_get_root_node` (api.c:1179-1188) returns a null pointer
if the stack of nodes is empty. -/
def convertLoop (H : HSrc ρ) (W : OutH ω) (maxLevel : Int) (fuel m dfuel : Nat) : Nat → HLPar ρ → HDumper (HEm ω) → HM (CEnd × HLPar ρ × HDumper (HEm ω))
  | 0, p, s => return (.running, p, s)
  | n + 1, p, s => do
    let (ok, d, p) ← lLoad H maxLevel fuel m p
    if !ok then return (.parser, p, s)
    else do
      let (ok, s) ← hDump (emitEvent W) dfuel d s
      if !ok then return (.emitter, p, s)
      else if d.nodes.top = 0 then return (.done, p, s)
      else convertLoop H W maxLevel fuel m dfuel n p s

/-- tests/example-reformatter-alt.c:66-109 and 197-200: initialize, set parameters, convert, delete. The result is how the loop ends, the parser as
it was at that time, and the dumper as it was, with the state of the output. -/
def convert (H : HSrc ρ) (W : OutH ω) (maxLevel : Int) (fuel m dfuel n : Nat) (settings : Emitter) (w : ω) : HM (Option (CEnd × HPar ρ × HDumper (HEm ω))) := do
  let (ok, p) ← hParserInit H
  if ok then do
    match ← emitterInit w with
    | none => do
      hParserDelete H p
      return none
    | some q => do
      let (r, p, s) ← convertLoop H W maxLevel fuel m dfuel n { par := { st := p } } { out := { q with val := settings } }
      hParserDelete H p.par.st
      emitterDelete s.out s.anchors
      return some (r, p.par, s)
  else return none

end LibYaml
