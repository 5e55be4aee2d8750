import Verif.Model.Reader
import Verif.Model.Containers

/-!
# Model of `src/writer.c`, of the output macros of `src/emitter.c` and of the string output handler of `src/api.c`

Representation. The working buffer is the list of bytes between `buffer.start` and `buffer.pointer`, the raw buffer the
list of bytes between `raw_buffer.start` and `raw_buffer.last`. A store beyond the capacity is `Fail.ub`.
A C function returning `int` gives `(true, st)` for 1 and `(false, st)` for 0 (writer error).
-/

namespace LibYaml

open LibYaml.Spec (Enc)

/-- yaml_private.h:58 `OUTPUT_BUFFER_SIZE` -/
def outCap : Nat := 16384

/-- yaml_private.h:66 `OUTPUT_RAW_BUFFER_SIZE` -/
def outRawCap : Nat := outCap * 2 + 2

/-- A write handler (`yaml_write_handler_t`, yaml.h:1421) with its data: success or failure, and the new data. It may
itself run into undefined behaviour (the string handler's `memcpy`). -/
abbrev Handler (σ : Type) := σ → List UInt8 → Except Fail (Bool × σ)

/-- The writer part of `yaml_emitter_t` (yaml.h:1560-1650). `trace` is a ghost: the buffers passed to the handler so
far, in order. -/
structure WS (σ : Type) where
  enc : Enc
  buf : List UInt8 := []
  raw : List UInt8 := []
  sink : σ
  trace : List (List UInt8) := []

/-- writer.c:96-99: value of the trailing octets, without checks. -/
def foldTrail (value : Nat) : List UInt8 → Nat
  | [] => value
  | b :: rest => foldTrail ((value <<< 6) + (b.toNat &&& 0x3F)) rest

/-- `raw_buffer.last[low] = lo; raw_buffer.last[high] = hi`: the two bytes of a unit in memory order. -/
def twoBytes (le : Bool) (hi lo : Nat) : List UInt8 :=
  if le then [UInt8.ofNat lo, UInt8.ofNat hi] else [UInt8.ofNat hi, UInt8.ofNat lo]

/-- writer.c:105-123: the UTF-16 bytes written for a character. -/
def recodeChar (le : Bool) (value : Nat) : List UInt8 :=
  if value < 0x10000 then twoBytes le (value >>> 8) (value &&& 0xFF)
  else
    let value := value - 0x10000
    twoBytes le (0xD8 + (value >>> 18)) ((value >>> 10) &&& 0xFF)
      ++ twoBytes le (0xDC + ((value >>> 8) &&& 0xFF)) (value &&& 0xFF)

/-- writer.c:70-124: recode the buffer. A leading octet of width 0 would make the C loop store for ever without
advancing, a truncated character would make `pointer` pass `last`: both are `ub`. `fuel` bounds the number of
characters; the number of bytes is always enough. -/
def recode (le : Bool) : Nat → List UInt8 → List UInt8 → Except Fail (List UInt8)
  | _, [], raw => .ok raw
  | 0, _ :: _, _ => .error .fuel
  | fuel + 1, b :: rest, raw =>
    let w := width b.toNat
    if w = 0 ∨ w > rest.length + 1 then .error .ub
    else
      let out := recodeChar le (foldTrail (leadBits b.toNat) (rest.take (w - 1)))
      if raw.length + out.length ≤ outRawCap then recode le fuel (rest.drop (w - 1)) (raw ++ out)
      else .error .ub

/-- writer.c:31-140 `yaml_emitter_flush`. The assertions (36-38) are part of the representation. Note the two failure
exits: with UTF-8 `pointer` was already reset (41), so the buffered bytes are dropped; with UTF-16 the loop moved
`pointer` back to `last` and the raw buffer keeps its content. -/
def flush {σ : Type} (h : Handler σ) (st : WS σ) : Except Fail (Bool × WS σ) :=
  if st.buf.isEmpty then .ok (true, st)                                     -- 45-47
  else
    match st.enc with
    | .utf8 =>                                                               -- 51-63
      match h st.sink st.buf with
      | .error e => .error e
      | .ok (r, sink) => .ok (r, { st with buf := [], sink := sink, trace := st.trace ++ [st.buf] })
    | e =>
      match recode (e == .utf16le) st.buf.length st.buf st.raw with          -- 67-124
      | .error e => .error e
      | .ok raw =>
        match h st.sink raw with                                             -- 128-139
        | .error e => .error e
        | .ok (true, sink) => .ok (true, { st with buf := [], raw := [], sink := sink, trace := st.trace ++ [raw] })
        | .ok (false, sink) => .ok (false, { st with raw := raw, sink := sink, trace := st.trace ++ [raw] })

/-- Store bytes at `buffer.pointer`. -/
def WS.store {σ : Type} (st : WS σ) (bytes : List UInt8) : Except Fail (Bool × WS σ) :=
  if st.buf.length + bytes.length ≤ outCap then .ok (true, { st with buf := st.buf ++ bytes }) else .error .ub

/-- emitter.c:8-53: `FLUSH` followed by a store of `bytes`. This is `PUT` (one byte), `PUT_BREAK` (one or two bytes),
`WRITE` (one character, yaml_private.h:397-413 `COPY`), `WRITE_BREAK`, and `yaml_emitter_write_bom` (three bytes,
emitter.c:1776-1783). In `WRITE_BREAK` the inner `PUT_BREAK` repeats the `FLUSH`, which has no effect then. -/
def emitBytes {σ : Type} (h : Handler σ) (bytes : List UInt8) (st : WS σ) : Except Fail (Bool × WS σ) :=
  if st.buf.length + 5 < outCap then st.store bytes
  else
    match flush h st with
    | .error e => .error e
    | .ok (false, st) => .ok (false, st)
    | .ok (true, st) => st.store bytes

/-- One output operation of the emitter: characters (at most 6 bytes) or an explicit flush. -/
inductive WOp
  | chars (cs : List Nat)
  | flush

/-- The characters an operation emits. -/
def WOp.text : WOp → List Nat
  | .chars cs => cs
  | .flush => []

def WOp.run {σ : Type} (h : Handler σ) : WOp → WS σ → Except Fail (Bool × WS σ)
  | .chars cs, st => emitBytes h (Spec.utf8s cs) st
  | .flush, st => LibYaml.flush h st

/-- A history of output operations that stops at the first failure, as every emitter function does. -/
def runOps {σ : Type} (h : Handler σ) : List WOp → WS σ → Except Fail (Bool × WS σ)
  | [], st => .ok (true, st)
  | op :: ops, st =>
    match op.run h st with
    | .error e => .error e
    | .ok (false, st) => .ok (false, st)
    | .ok (true, st) => runOps h ops st

/-- A history of output operations of a client that goes on after failures (`yaml_emitter_emit`, emitter.c:281-299, does
not look at `emitter->error`). -/
def runAll {σ : Type} (h : Handler σ) : List WOp → WS σ → Except Fail (WS σ)
  | [], st => .ok st
  | op :: ops, st =>
    match op.run h st with
    | .error e => .error e
    | .ok (_, st) => runAll h ops st

/-- State after `yaml_emitter_initialize` and `yaml_emitter_set_output*` (api.c:354-504), with the encoding chosen. -/
def WS.init {σ : Type} (enc : Enc) (sink : σ) : WS σ := { enc := enc, sink := sink }

/-- Data of the string output handler (yaml.h:1580-1590): the caller's memory, its size as told to the library
(`mem.length`) and `*size_written`. -/
structure StrOut where
  mem : List UInt8
  written : Nat := 0

/-- api.c:419-440 `yaml_string_write_handler`. `size - *size_written` is an unsigned subtraction; it is undefined here
if it would wrap. -/
def stringHandler : Handler StrOut := fun s buffer =>
  if s.written > s.mem.length then .error .ub
  else if s.mem.length - s.written < buffer.length then
    match memcpy s.mem s.written (buffer.take (s.mem.length - s.written)) with
    | .error e => .error e
    | .ok mem => .ok (false, { mem := mem, written := s.mem.length })
  else
    match memcpy s.mem s.written buffer with
    | .error e => .error e
    | .ok mem => .ok (true, { mem := mem, written := s.written + buffer.length })

/-- api.c:634-657: check one character at the front of the string and return what follows it. -/
def checkStep (raw : List UInt8) : Option (List UInt8) :=
  match raw with
  | [] => none     -- not reached: the loop condition (632) excludes it
  | b :: rest =>
    let w := width b.toNat
    if w = 0 then none
    else if w > raw.length then none
    else
      match trailing 0 (leadBits b.toNat) 1 (rest.take (w - 1)) with
      | .error _ => none
      | .ok value =>
        if !(w == 1 || (w == 2 && decide (value ≥ 0x80)) || (w == 3 && decide (value ≥ 0x800))
              || (w == 4 && decide (value ≥ 0x10000))) then none
        else some (raw.drop w)

/-- api.c:625-662 `yaml_check_utf8`; the fuel is the number of characters still possible. -/
def checkLoop : Nat → List UInt8 → Bool
  | _, [] => true
  | 0, _ :: _ => false
  | fuel + 1, b :: rest =>
    match checkStep (b :: rest) with
    | none => false
    | some r => checkLoop fuel r

def checkUtf8 (bytes : List UInt8) : Bool := checkLoop bytes.length bytes

end LibYaml
