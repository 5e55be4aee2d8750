import Verif.Model.LoaderHeap
import Verif.Model.Dumper

/-!
# The dumper on the heap (`src/dumper.c`)

`emit` stands for `yaml_emitter_emit`, which takes over the blocks of the event, whether it succeeds or not.
-/

namespace LibYaml

variable {τ : Type}

/-- `emitter->anchors[k]` -/
def hAnch (k : Nat) (p : Ptr) : HM Anch := do
  match ← loadObj p with
  | .anchs as =>
    match as[k]? with
    | some a => return a
    | none => fun _ => .error .ub
  | _ => fun _ => .error .ub

/-- Writing `emitter->anchors[k]`. -/
def hSetAnch (k : Nat) (a : Anch) (p : Ptr) : HM Unit := do
  match ← loadObj p with
  | .anchs as => if k < as.length then store p (.anchs (as.set k a)) else fun _ => .error .ub
  | _ => fun _ => .error .ub

/-- `document->nodes.start + index - 1`, read -/
def hNode (index : Int) (s : HStk) : HM HNode := if 0 < index then hGet (index.toNat - 1) s else fun _ => .error .ub

/-- The loop over the items of a sequence (dumper.c:218-221): `n` items are left, the next one is `i`. The state is `last_anchor_id`. -/
def hForItems (f : Int → Nat → HM Nat) (s : HStk) : Nat → Nat → Nat → HM Nat
  | 0, _, last => return last
  | n + 1, i, last => do
    let item : Int ← hGet i s
    hForItems f s n (i + 1) (← f item last)

/-- The loop over the pairs of a mapping (dumper.c:224-228). -/
def hForPairs (f : Int → Nat → HM Nat) (s : HStk) : Nat → Nat → Nat → HM Nat
  | 0, _, last => return last
  | n + 1, i, last => do
    let p : Int × Int ← hGet i s
    let last ← f p.1 last
    hForPairs f s n (i + 1) (← f p.2 last)

/-- dumper.c:205-238 `yaml_emitter_anchor_node`; the result is `last_anchor_id`. The number bounds the depth of the recursion. -/
def hAnchorNode (nodes : HStk) (anchors : Ptr) : Nat → Int → Nat → HM Nat
  | 0, _, _ => fun _ => .error .fuel
  | fuel + 1, index, last => do
    let nd ← hNode index nodes
    let k := index.toNat - 1
    let a ← hAnch k anchors
    hSetAnch k { a with references := a.references + 1 } anchors
    if a.references + 1 = 1 then
      match nd with
      | .sequence _ items _ => hForItems (hAnchorNode nodes anchors fuel) items items.top 0 last
      | .mapping _ pairs _ => hForPairs (hAnchorNode nodes anchors fuel) pairs pairs.top 0 last
      | .scalar .. => return last
    else if a.references + 1 = 2 then do
      let a ← hAnch k anchors
      hSetAnch k { a with anchor := last + 1 } anchors
      return last + 1
    else return last

/-- dumper.c:241-257 `yaml_emitter_generate_anchor`, and its caller's test of the anchor id (dumper.c:268-271). `sprintf` beyond the 16 bytes is
undefined; the bytes behind the NUL are omitted. The first result is false without memory. -/
def hAnchor (id : Nat) : HM (Bool × Ptr) := do
  if id = 0 then return (true, none)
  else do
    let text := Spec.textBytes (generateAnchor id)
    if 16 < text.length + 1 then fun _ => .error .ub
    else do
      let p ← malloc (.bytes (text ++ [0]))
      return (p.isSome, p)

/-- `strcmp((char *)node->tag, …) == 0` -/
def hIsTag (dflt : Text) (tag : Ptr) : HM Bool := do return (← hString tag) == dflt.map Nat.toUInt8

/-- The loop in `yaml_emitter_dump_sequence` (dumper.c:353-356). -/
def hDumpItems (f : Int → τ → HM (Bool × τ)) (s : HStk) : Nat → Nat → τ → HM (Bool × τ)
  | 0, _, t => return (true, t)
  | n + 1, i, t => do
    let item : Int ← hGet i s
    let (ok, t) ← f item t
    if !ok then return (false, t) else hDumpItems f s n (i + 1) t

/-- The loop in `yaml_emitter_dump_mapping` (dumper.c:383-387). -/
def hDumpPairs (f : Int → τ → HM (Bool × τ)) (s : HStk) : Nat → Nat → τ → HM (Bool × τ)
  | 0, _, t => return (true, t)
  | n + 1, i, t => do
    let p : Int × Int ← hGet i s
    let (ok, t) ← f p.1 t
    if !ok then return (false, t)
    else do
      let (ok, t) ← f p.2 t
      if !ok then return (false, t) else hDumpPairs f s n (i + 1) t

/-- dumper.c:262-295 `yaml_emitter_dump_node` with `yaml_emitter_dump_alias`, `_scalar`, `_sequence`, `_mapping` (dumper.c:299-394). -/
def hDumpNode (emit : HEvent → τ → HM (Bool × τ)) (nodes : HStk) (anchors : Ptr) : Nat → Int → τ → HM (Bool × τ)
  | 0, _, _ => fun _ => .error .fuel
  | fuel + 1, index, t => do
    let nd ← hNode index nodes
    let k := index.toNat - 1
    let a ← hAnch k anchors
    let (ok, anchor) ← hAnchor a.anchor
    if !ok then return (false, t)
    else if a.serialized then emit (.alias anchor) t
    else do
      hSetAnch k { a with serialized := true } anchors
      match nd with
      | .scalar tag value length style => do
        let plain ← hIsTag strTag tag
        let quoted ← hIsTag strTag tag
        emit (.scalar anchor tag value length plain quoted style) t
      | .sequence tag items style => do
        let implicit ← hIsTag seqTag tag
        let (ok, t) ← emit (.sequenceStart anchor tag implicit style) t
        if !ok then return (false, t)
        else do
          let (ok, t) ← hDumpItems (hDumpNode emit nodes anchors fuel) items items.top 0 t
          if !ok then return (false, t) else emit .sequenceEnd t
      | .mapping tag pairs style => do
        let implicit ← hIsTag mapTag tag
        let (ok, t) ← emit (.mappingStart anchor tag implicit style) t
        if !ok then return (false, t)
        else do
          let (ok, t) ← hDumpPairs (hDumpNode emit nodes anchors fuel) pairs pairs.top 0 t
          if !ok then return (false, t) else emit .mappingEnd t

/-- The fields of the emitter that the dumper uses. -/
structure HDumper (τ : Type) where
  opened : Bool := false
  closed : Bool := false
  anchors : Ptr := none
  last : Nat := 0
  out : τ

/-- dumper.c:181-184 -/
def hFreeStrings : HNode → HM Unit
  | .scalar tag value _ _ => do
    free tag
    free value
  | .sequence tag _ _ => free tag
  | .mapping tag _ _ => free tag

/-- dumper.c:186-191 -/
def hFreeChildren : HNode → HM Unit
  | .scalar .. => return ()
  | .sequence _ items _ => free items.start
  | .mapping _ pairs _ => free pairs.start

/-- The loop in `yaml_emitter_delete_document_and_anchors` (dumper.c:177-192): `n` nodes are left, the next one has index `i`. -/
def hFreeDumped (nodes : HStk) (anchors : Ptr) : Nat → Nat → HM Unit
  | 0, _ => return ()
  | n + 1, i => do
    let nd : HNode ← hGet i nodes
    let a ← hAnch i anchors
    (if a.serialized then return () else hFreeStrings nd : HM Unit)
    hFreeChildren nd
    hFreeDumped nodes anchors n (i + 1)

/-- dumper.c:166-200 `yaml_emitter_delete_document_and_anchors` -/
def hDeleteDumped (d : HDoc) (s : HDumper τ) : HM (HDumper τ) := do
  if s.anchors.isNone then do
    documentDelete d
    return s
  else do
    hFreeDumped d.nodes s.anchors d.nodes.top 0
    free d.nodes.start
    free s.anchors
    return { s with anchors := none, last := 0 }

/-- dumper.c:61-80 `yaml_emitter_open` -/
def hOpen (emit : HEvent → τ → HM (Bool × τ)) (s : HDumper τ) : HM (Bool × HDumper τ) := do
  assertH (!s.opened)
  let (ok, out) ← emit (.streamStart none) s.out
  if ok then return (true, { s with opened := true, out }) else return (false, { s with out })

/-- dumper.c:85-106 `yaml_emitter_close` -/
def hCloseDump (emit : HEvent → τ → HM (Bool × τ)) (s : HDumper τ) : HM (Bool × HDumper τ) := do
  assertH s.opened
  if s.closed then return (true, s)
  else do
    let (ok, out) ← emit .streamEnd s.out
    if ok then return (true, { s with closed := true, out }) else return (false, { s with out })

/-- dumper.c:133-151, with the anchors allocated. The result is false for `goto error`. -/
def hDumpBody (emit : HEvent → τ → HM (Bool × τ)) (fuel : Nat) (d : HDoc) (s : HDumper τ) : HM (Bool × HDumper τ) := do
  let (ok, out) ← emit (.documentStart d.version d.tags d.startImplicit) s.out
  if !ok then return (false, { s with out })
  else do
    let last ← hAnchorNode d.nodes s.anchors fuel 1 s.last
    let (ok, out) ← hDumpNode emit d.nodes s.anchors fuel 1 out
    let s := { s with out, last }
    if !ok then return (false, s)
    else do
      let (ok, out) ← emit (.documentEnd d.endImplicit) s.out
      return (ok, { s with out })

/-- dumper.c:110-160 `yaml_emitter_dump` -/
def hDump (emit : HEvent → τ → HM (Bool × τ)) (fuel : Nat) (d : HDoc) (s : HDumper τ) : HM (Bool × HDumper τ) := do
  let (ok, s) ← (if s.opened then return (true, s) else hOpen emit s : HM (Bool × HDumper τ))
  if !ok then return (false, ← hDeleteDumped d s)
  else if d.nodes.top = 0 then do
    let (ok, s) ← hCloseDump emit s
    return (ok, ← hDeleteDumped d s)
  else do
    let anchors ← malloc (.anchs (List.replicate d.nodes.top {}))
    let s := { s with anchors }
    if anchors.isNone then return (false, ← hDeleteDumped d s)
    else do
      let (ok, s) ← hDumpBody emit fuel d s
      return (ok, ← hDeleteDumped d s)

end LibYaml
