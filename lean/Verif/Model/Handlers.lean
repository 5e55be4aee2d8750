import Verif.Model.Scanner

/-!
# Read handlers with a state of their own, the handlers of `src/api.c`, and the reader over them

`Model/Reader.lean` has one handler over a list of bytes, steered by an oracle. Here a handler is an arbitrary state machine,
and the functions of `src/reader.c` that call it are given once more over such a handler. The functions that only work
on the buffers are those of `Model/Reader.lean`.

Representation. A state is the state of the reader together with the data of the handler. The field `src` of the state of the reader
does not give any bytes here. It is a ghost that counts what the handler has still to hand out (the loops use it as their
bound, as in `Model/Reader.lean`) and the sizes asked for.
-/

namespace LibYaml

open LibYaml.Spec (Enc)

/-- A read handler (`yaml_read_handler_t`, yaml.h:970-989) with its data: the bytes it has stored in the buffer, or `none` if it
returns 0, and the new data. It may itself run into undefined behaviour (the `memcpy` of the string handler). -/
abbrev ReadHandler (ρ : Type) := ρ → Nat → Except Fail (Option (List UInt8) × ρ)

/-! ### The handlers of `src/api.c` -/

/-- Data of the string input handler (yaml.h:1124-1138 `input.string`): the memory of the client, `end - start` and
`current - start`. -/
structure StrIn where
  mem : List UInt8
  stop : Nat
  current : Nat := 0

/-- api.c:288-302 `yaml_parser_set_input_string`. -/
def StrIn.set (input : List UInt8) (size : Nat) : StrIn := { mem := input, stop := size }

/-- api.c:248-268 `yaml_string_read_handler`. The `memcpy` is undefined if it reads outside of the memory; the subtraction of
pointers must not be negative (it is converted to `size_t`). -/
def stringRead : ReadHandler StrIn := fun s size =>
  if s.current = s.stop then .ok (some [], s)
  else if s.stop < s.current then .error .ub
  else
    let size := if size > s.stop - s.current then s.stop - s.current else size
    if s.mem.length < s.current + size then .error .ub
    else .ok (some ((s.mem.drop s.current).take size), { s with current := s.current + size })

/-- A `FILE` as the handlers see it: `fread` and `fwrite` with the count of bytes, and the error indicator. `φ` is whatever
state the stream has. -/
structure Files (φ : Type) where
  fread : φ → Nat → List UInt8 × φ
  fwrite : φ → List UInt8 → Nat × φ
  ferror : φ → Bool

/-- api.c:274-282 `yaml_file_read_handler`. -/
def fileRead {φ : Type} (F : Files φ) : ReadHandler φ := fun file size =>
  let r := F.fread file size
  .ok (if F.ferror r.2 then none else some r.1, r.2)

/-- api.c:445-451 `yaml_file_write_handler`. -/
def fileWrite {φ : Type} (F : Files φ) : φ → List UInt8 → Except Fail (Bool × φ) := fun file buffer =>
  let r := F.fwrite file buffer
  .ok (r.1 == buffer.length, r.2)

/-! ### The reader over a handler -/

section
variable {ρ : Type} (H : ReadHandler ρ)

/-- reader.c:94-132 `yaml_parser_update_raw_buffer`. The handler must not store more than it was asked for. -/
def updateRawH (st : RS) (r : ρ) : Except RFail (RS × ρ) :=
  if st.rawOff = 0 ∧ st.raw.length = rawCap then .ok (st, r)
  else if st.eof then .ok (st, r)
  else
    let st := { st with rawOff := 0 }
    let size := rawCap - st.raw.length
    match H r size with
    | .error e => .error e
    | .ok (none, _) => .error (.reader "input error" st.offset (-1))
    | .ok (some bytes, r) =>
      if size < bytes.length then .error .ub
      else
        let st := { st with src := { rest := st.src.rest.drop bytes.length, asked := size :: st.src.asked }, raw := st.raw ++ bytes }
        .ok (if bytes.isEmpty then { st with eof := true } else st, r)

/-- reader.c:55-60 -/
def needThreeH : Nat → RS → ρ → Except RFail (RS × ρ)
  | 0, _, _ => .error .fuel
  | fuel + 1, st, r =>
    if !st.eof && decide (st.raw.length < 3) then
      match updateRawH H st r with
      | .error e => .error e
      | .ok (st, r) => needThreeH fuel st r
    else .ok (st, r)

/-- reader.c:50-87 `yaml_parser_determine_encoding` -/
def determineEncodingH (st : RS) (r : ρ) : Except RFail (RS × ρ) :=
  match needThreeH H 5 st r with
  | .error e => .error e
  | .ok (st, r) => .ok (detectBom st, r)

/-- reader.c:181-461 -/
def fillLoopH (e : Enc) (length : Nat) : Nat → Bool → RS → ρ → Except RFail ((RS × Bool) × ρ)
  | 0, _, _, _ => .error .fuel
  | fuel + 1, first, st, r =>
    if st.unread < length then
      match (if !first || st.raw.isEmpty then updateRawH H st r else .ok (st, r)) with
      | .error e => .error e
      | .ok (st, r) =>
        match decodeLoop e (st.raw.length + 1) st with
        | .error e => .error e
        | .ok st =>
          if st.eof then
            match st.store [0] with
            | .error e => .error e
            | .ok st => .ok (({ st with unread := st.unread + 1 }, true), r)
          else fillLoopH e length fuel false st r
    else .ok ((st, false), r)

/-- reader.c:160-163 -/
def ensureEncodingH (st : RS) (r : ρ) : Except RFail (RS × ρ) :=
  match st.enc with
  | none => determineEncodingH H st r
  | some _ => .ok (st, r)

/-- reader.c:141-469 `yaml_parser_update_buffer` -/
def updateBufferH (st : RS) (r : ρ) (length : Nat) : Except RFail (RS × ρ) :=
  if st.eof ∧ st.raw.isEmpty then .ok (st, r)
  else if st.unread ≥ length then .ok (st, r)
  else
    match ensureEncodingH H st r with
    | .error e => .error e
    | .ok (st, r) =>
      match st.enc with
      | none => .error .ub
      | some e =>
        let st := moveBuf st
        match fillLoopH H e length (st.src.rest.length + 3) true st r with
        | .error e => .error e
        | .ok ((st, true), r) => .ok (st, r)
        | .ok ((st, false), r) =>
          if st.offset ≥ maxFileSize then .error (.reader "input is too long" st.offset (-1))
          else .ok (st, r)

/-- scanner.c:486-489 `CACHE(parser, length)` -/
def cacheH (st : RS) (r : ρ) (length : Nat) : Except RFail (RS × ρ) :=
  if st.unread ≥ length then .ok (st, r) else updateBufferH H st r length

/-- Interpretation of programs over the reader with the handler. -/
def Prog.runH {α : Type} : Prog α → RS → ρ → Except Fail (α × RS × ρ)
  | .ret a, st, r => .ok (a, st, r)
  | .fail e, _, _ => .error e
  | .cache n k, st, r =>
    match cacheH H st r n with
    | .error e => .error e
    | .ok (st, r) => k.runH st r
  | .look j k, st, r =>
    match lookR st j with
    | .error e => .error e
    | .ok c => (k c).runH st r
  | .skip k, st, r =>
    match skipR st with
    | .error e => .error e
    | .ok st => k.runH st r

/-- The scanner over the handler, for `scanCall`. -/
def onHandler {α : Type} (p : SM α) (s : Scanner) (i : RS × ρ) : Except Fail ((α × Scanner) × RS × ρ) := (p s).runH H i.1 i.2

/-- `k` calls of `yaml_parser_scan`, as `scanRun`. -/
def scanRunH (f : Nat) (st : ScanSt (RS × ρ)) : Nat → List ScanOut × ScanSt (RS × ρ)
  | 0 => ([], st)
  | k + 1 =>
    let r := scanRunH f st k
    let c := scanCall (onHandler H) f r.2
    (r.1 ++ [c.1], c.2)

/-- The scanner over the handler as a source of tokens for the parser. -/
def handlerSrc (f : Nat) : TokSrc (Scanner × RS × ρ) where
  next := fun (s, i) =>
    match onHandler H (nextToken f) s i with
    | .error e => .error e
    | .ok ((t, s), i) => .ok (t, (s, i))
  depth := fun (s, _) => s.indents.length + s.flowLevel

end

end LibYaml
