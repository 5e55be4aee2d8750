import Verif.Model.Types

/-!
# Model of the dumper (`src/dumper.c`)

`emit` stands for `yaml_emitter_emit`: it takes an event and says whether the emitter accepted it. Node ids that denote no node are
undefined behaviour. Ownership of strings and failing allocations of the dumper itself are in `Model/DumperHeap.lean`; node ids and counters are
natural numbers (the C code uses `int`; a document has fewer than `INT_MAX` nodes).
-/

namespace LibYaml

variable {τ : Type}

/-- yaml.h:1548-1555 `yaml_anchors_t` -/
structure Anch where
  references : Nat := 0
  anchor : Nat := 0
  serialized : Bool := false
  deriving DecidableEq, Repr

/-- `emitter->anchors` and `emitter->last_anchor_id`. -/
structure AState where
  anchors : List Anch
  last : Nat := 0
  deriving DecidableEq, Repr

/-- The loop over the items of a sequence (dumper.c:219-222). -/
def forItems (f : Nat → AState → Except Fail AState) : List Nat → AState → Except Fail AState
  | [], s => .ok s
  | i :: is, s =>
    match f i s with
    | .error e => .error e
    | .ok s => forItems f is s

/-- The loop over the pairs of a mapping (dumper.c:225-229). -/
def forPairs (f : Nat → AState → Except Fail AState) : List (Nat × Nat) → AState → Except Fail AState
  | [], s => .ok s
  | p :: ps, s =>
    match f p.1 s with
    | .error e => .error e
    | .ok s =>
      match f p.2 s with
      | .error e => .error e
      | .ok s => forPairs f ps s

/-- dumper.c:205-238 `yaml_emitter_anchor_node`; the first argument bounds the depth of the recursion. -/
def anchorNode (nodes : List Node) : Nat → Nat → AState → Except Fail AState
  | 0, _, _ => .error .fuel
  | fuel + 1, index, s =>
    if index = 0 then .error .ub
    else
      match nodes[index - 1]?, s.anchors[index - 1]? with
      | some nd, some a =>
        let s1 : AState := { s with anchors := s.anchors.set (index - 1) { a with references := a.references + 1 } }
        if a.references + 1 = 1 then
          match nd.data with
          | .sequence items _ => forItems (anchorNode nodes fuel) items s1
          | .mapping pairs _ => forPairs (anchorNode nodes fuel) pairs s1
          | .scalar .. => .ok s1
        else if a.references + 1 = 2 then
          .ok { anchors := s.anchors.set (index - 1) { a with references := a.references + 1, anchor := s.last + 1 }, last := s.last + 1 }
        else .ok s1
      | _, _ => .error .ub

/-- `%d` of `printf`; the first argument bounds the number of digits. -/
def decimalAux : Nat → Nat → Text
  | 0, _ => []
  | fuel + 1, n => if n < 10 then [48 + n] else decimalAux fuel (n / 10) ++ [48 + n % 10]

def decimal (n : Nat) : Text := decimalAux (n + 1) n

/-- dumper.c:241-257 `yaml_emitter_generate_anchor`: `id%03d` -/
def generateAnchor (id : Nat) : Text := lit ['i', 'd'] ++ (List.replicate (3 - (decimal id).length) 48 ++ decimal id)

/-- State of `yaml_emitter_dump_node`: `emitter->anchors` and the rest of the emitter. -/
structure DState (τ : Type) where
  anchors : List Anch
  out : τ

/-- The loops in `yaml_emitter_dump_sequence` and `yaml_emitter_dump_mapping`; `false` is `return 0`. -/
def dumpItems (f : Nat → DState τ → Except Fail (Bool × DState τ)) : List Nat → DState τ → Except Fail (Bool × DState τ)
  | [], s => .ok (true, s)
  | i :: is, s =>
    match f i s with
    | .error e => .error e
    | .ok (false, s) => .ok (false, s)
    | .ok (true, s) => dumpItems f is s

def dumpPairs (f : Nat → DState τ → Except Fail (Bool × DState τ)) : List (Nat × Nat) → DState τ → Except Fail (Bool × DState τ)
  | [], s => .ok (true, s)
  | p :: ps, s =>
    match f p.1 s with
    | .error e => .error e
    | .ok (false, s) => .ok (false, s)
    | .ok (true, s) =>
      match f p.2 s with
      | .error e => .error e
      | .ok (false, s) => .ok (false, s)
      | .ok (true, s) => dumpPairs f ps s

/-- `return yaml_emitter_emit(emitter, &event)` with marks 0. -/
def emitEv (emit : Event → τ → Bool × τ) (d : EvData) (s : DState τ) : Bool × DState τ :=
  match emit { data := d } s.out with
  | (b, o) => (b, { s with out := o })

/-- Start event, children, end event (dumper.c:337-363, 367-394). -/
def dumpColl (emit : Event → τ → Bool × τ) (start stop : EvData) (kids : DState τ → Except Fail (Bool × DState τ)) (s : DState τ) :
    Except Fail (Bool × DState τ) :=
  match emitEv emit start s with
  | (false, s) => .ok (false, s)
  | (true, s) =>
    match kids s with
    | .error e => .error e
    | .ok (false, s) => .ok (false, s)
    | .ok (true, s) => .ok (emitEv emit stop s)

/-- dumper.c:268-272: the anchor of a node, if it has got an anchor id. -/
def anchorText (a : Anch) : Option Text := if a.anchor = 0 then none else some (generateAnchor a.anchor)

/-- dumper.c:262-295 `yaml_emitter_dump_node` with `yaml_emitter_dump_alias`, `_scalar`, `_sequence`, `_mapping` (dumper.c:299-394).
An alias without anchor would be an event with a `NULL` string: undefined behaviour. -/
def dumpNode (emit : Event → τ → Bool × τ) (nodes : List Node) : Nat → Nat → DState τ → Except Fail (Bool × DState τ)
  | 0, _, _ => .error .fuel
  | fuel + 1, index, s =>
    if index = 0 then .error .ub
    else
      match nodes[index - 1]?, s.anchors[index - 1]? with
      | some nd, some a =>
        if a.serialized then
          match anchorText a with
          | none => .error .ub
          | some t => .ok (emitEv emit (.alias t) s)
        else
          let s1 : DState τ := { s with anchors := s.anchors.set (index - 1) { a with serialized := true } }
          match nd.data with
          | .scalar value style =>
            let implicit := decide (nd.tag = strTag)
            .ok (emitEv emit (.scalar (anchorText a) (some nd.tag) value implicit implicit style) s1)
          | .sequence items style =>
            dumpColl emit (.sequenceStart (anchorText a) (some nd.tag) (decide (nd.tag = seqTag)) style) .sequenceEnd
              (dumpItems (dumpNode emit nodes fuel) items) s1
          | .mapping pairs style =>
            dumpColl emit (.mappingStart (anchorText a) (some nd.tag) (decide (nd.tag = mapTag)) style) .mappingEnd
              (dumpPairs (dumpNode emit nodes fuel) pairs) s1
      | _, _ => .error .ub

/-- The fields of the emitter that the dumper uses: `opened`, `closed`, `last_anchor_id`, and the rest. -/
structure Dumper (τ : Type) where
  opened : Bool := false
  closed : Bool := false
  last : Nat := 0
  out : τ

/-- dumper.c:61-80 `yaml_emitter_open` -/
def dOpen (emit : Event → τ → Bool × τ) (s : Dumper τ) : Except Fail (Bool × Dumper τ) :=
  if s.opened then .error .ub
  else
    match emit { data := .streamStart none } s.out with
    | (true, o) => .ok (true, { s with opened := true, out := o })
    | (false, o) => .ok (false, { s with out := o })

/-- dumper.c:85-106 `yaml_emitter_close` -/
def dClose (emit : Event → τ → Bool × τ) (s : Dumper τ) : Except Fail (Bool × Dumper τ) :=
  if ¬ s.opened then .error .ub
  else if s.closed then .ok (true, s)
  else
    match emit { data := .streamEnd } s.out with
    | (true, o) => .ok (true, { s with closed := true, out := o })
    | (false, o) => .ok (false, { s with out := o })

/-- dumper.c:127-151: the part of `yaml_emitter_dump` for a document with nodes, `yaml_emitter_delete_document_and_anchors` included. -/
def dumpNodes (emit : Event → τ → Bool × τ) (fuel : Nat) (d : Doc) (s : Dumper τ) : Except Fail (Bool × Dumper τ) :=
  match emit { data := .documentStart d.version d.tags d.startImplicit } s.out with
  | (false, o) => .ok (false, { s with last := 0, out := o })
  | (true, o) =>
    match anchorNode d.nodes fuel 1 { anchors := List.replicate d.nodes.length {}, last := s.last } with
    | .error e => .error e
    | .ok a =>
      match dumpNode emit d.nodes fuel 1 { anchors := a.anchors, out := o } with
      | .error e => .error e
      | .ok (false, ds) => .ok (false, { s with last := 0, out := ds.out })
      | .ok (true, ds) =>
        match emit { data := .documentEnd d.endImplicit } ds.out with
        | (b, o) => .ok (b, { s with last := 0, out := o })

/-- dumper.c:110-160 `yaml_emitter_dump` -/
def dump (emit : Event → τ → Bool × τ) (fuel : Nat) (d : Doc) (s : Dumper τ) : Except Fail (Bool × Dumper τ) :=
  match (if s.opened then .ok (true, s) else dOpen emit s) with
  | .error e => .error e
  | .ok (false, s) => .ok (false, s)
  | .ok (true, s) =>
    if d.nodes = [] then dClose emit s
    else dumpNodes emit fuel d s

end LibYaml
