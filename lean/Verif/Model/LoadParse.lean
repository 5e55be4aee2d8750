import Verif.Model.LoaderHeap
import Verif.Model.ParserHeap

/-!
# The loader and the parser on one heap (`src/loader.c`, `src/parser.c`)

In `Model/LoaderHeap.lean` the parser is a list of outcomes. Here it is the parser of `Model/ParserHeap.lean`: its allocations, those of the events and
those of the loader are on one heap. An error of the composer is recorded in the parser as `memory`, too: nothing but its presence matters for memory.
`n` bounds the loop of `yaml_parser_load_nodes`.
-/

namespace LibYaml

variable {ρ : Type}

/-- The parser as the loader uses it: `parser->aliases` is set only in `yaml_parser_load`. -/
structure HLPar (ρ : Type) where
  par : HPar ρ
  aliases : HStk := {}

/-- loader.c:215-257 `yaml_parser_load_nodes` -/
def lLoadNodes (H : HSrc ρ) (maxLevel : Int) (fuel : Nat) : Nat → HLoad → HPar ρ → HM (Bool × HLoad × HPar ρ)
  | 0, _, _ => fun _ => .error .fuel
  | n + 1, s, p => do
    let (o, p) ← hParseCall H maxLevel fuel p
    match o with
    | .failed => return (false, s, p)
    | .noEvent => fun _ => .error .ub
    | .event e =>
      match e.data with
      | .documentEnd i => return (true, { s with doc := { s.doc with endImplicit := i } }, p)
      | d => do
        let (ok, s) ← hComposeEvent d s
        if !ok then return (false, s, { p with error := some .memory }) else lLoadNodes H maxLevel fuel n s p

/-- loader.c:183-210 `yaml_parser_load_document` -/
def lLoadDocument (H : HSrc ρ) (maxLevel : Int) (fuel n : Nat) (e : HEvent) (s : HLoad) (p : HPar ρ) : HM (Bool × HLoad × HPar ρ) := do
  match e with
  | .documentStart v ts i => do
    let s := { s with doc := { s.doc with version := v, tags := ts, startImplicit := i } }
    let (ok, ctx) ← hInit Int
    if !ok then return (false, s, { p with error := some .memory })
    else do
      let (ok, s, p) ← lLoadNodes H maxLevel fuel n { s with ctx } p
      free s.ctx.start
      return (ok, { s with ctx := {} }, p)
  | _ => fun _ => .error .ub

/-- The label `error` of `yaml_parser_load` (loader.c:126-132). `yaml_document_delete` clears the document. -/
def lLoadError (s : HLoad) (p : HPar ρ) : HM (Bool × HDoc × HLPar ρ) := do
  let aliases ← hDeleteAliases s.aliases
  documentDelete s.doc
  return (false, {}, { par := p, aliases })

/-- loader.c:103-124, behind STREAM-START -/
def lLoadRest (H : HSrc ρ) (maxLevel : Int) (fuel n : Nat) (d : HDoc) (p : HLPar ρ) : HM (Bool × HDoc × HLPar ρ) := do
  if p.par.st.ended then return (true, d, p)
  else do
    let (o, q) ← hParseCall H maxLevel fuel p.par
    match o with
    | .failed => lLoadError { doc := d, aliases := p.aliases } q
    | .noEvent => fun _ => .error .ub
    | .event e =>
      match e.data with
      | .streamEnd => return (true, d, { p with par := q })
      | e => do
        let (ok, as) ← hInit (Ptr × Nat)
        if !ok then lLoadError { doc := d } { q with error := some .memory }
        else do
          let (ok, s, q) ← lLoadDocument H maxLevel fuel n e { doc := d, aliases := as } q
          if !ok then lLoadError s q
          else do
            let aliases ← hDeleteAliases s.aliases
            return (true, s.doc, { par := q, aliases })

/-- loader.c:85-133 `yaml_parser_load`. For `stream_start_produced` see `load` in `Model/Loader.lean`. -/
def lLoad (H : HSrc ρ) (maxLevel : Int) (fuel n : Nat) (p : HLPar ρ) : HM (Bool × HDoc × HLPar ρ) := do
  let (ok, nodes) ← hInit HNode
  if !ok then lLoadError { aliases := p.aliases } { p.par with error := some .memory }
  else do
    let d : HDoc := { nodes }
    if p.par.st.state = .streamStart then do
      let (o, q) ← hParseCall H maxLevel fuel p.par
      match o with
      | .failed => lLoadError { doc := d, aliases := p.aliases } q
      | .noEvent => fun _ => .error .ub
      | .event e =>
        match e.data with
        | .streamStart _ => lLoadRest H maxLevel fuel n d { p with par := q }
        | _ => fun _ => .error .ub
    else lLoadRest H maxLevel fuel n d p

end LibYaml
