import Verif.Model.EmitterHeap

/-!
# The dumper over the emitter, on one heap

The dumper's view of `yaml_emitter_emit`, and a client that dumps documents.
-/

namespace LibYaml

variable {ω : Type}

/-- `yaml_emitter_emit` as dumper.c sees it: 1 or 0. -/
def emitEvent (W : OutH ω) (e : HEvent) (p : HEm ω) : HM (Bool × HEm ω) := do
  let (r, p) ← eEmit W e p
  match r with
  | .ok _ => return (true, p)
  | .error _ => return (false, p)

/-- Delete documents. -/
def hDropDocs : List HDoc → HM Unit
  | [] => return ()
  | d :: ds => do
    documentDelete d
    hDropDocs ds

/-- Dump documents. After a failure the client deletes those that were not handed over. -/
def hDumps (W : OutH ω) (fuel : Nat) : List HDoc → HDumper (HEm ω) → HM (Bool × HDumper (HEm ω))
  | [], s => return (true, s)
  | d :: ds, s => do
    let (ok, s) ← hDump (emitEvent W) fuel d s
    if ok then hDumps W fuel ds s
    else do
      hDropDocs ds
      return (false, s)

/-- Open the stream, dump documents, close the stream; stop at the first failure. -/
def hDumpStream (W : OutH ω) (fuel : Nat) (ds : List HDoc) (s : HDumper (HEm ω)) : HM (Bool × HDumper (HEm ω)) := do
  let (ok, s) ← hOpen (emitEvent W) s
  if ok then do
    let (ok, s) ← hDumps W fuel ds s
    if ok then hCloseDump (emitEvent W) s else return (false, s)
  else do
    hDropDocs ds
    return (false, s)

/-- Initialize an emitter, apply settings, dump documents, delete the emitter. -/
def dumpSession (W : OutH ω) (w : ω) (settings : Emitter) (fuel : Nat) (ds : List HDoc) : HM (Option (Bool × HDumper (HEm ω))) := do
  match ← emitterInit w with
  | none => do
    hDropDocs ds
    return none
  | some p => do
    let (ok, s) ← hDumpStream W fuel ds { out := { p with val := settings } }
    emitterDelete s.out s.anchors
    return some (ok, s)

end LibYaml
