import Verif.Spec.Unicode
import Verif.Model.Basic

/-!
# Model of `src/reader.c`

The reader pulls bytes from a read handler into a raw buffer, decodes them and stores the characters, re-encoded
as UTF-8, in the working buffer.

Representation. A C buffer `{start, end, pointer, last}` is modelled by the offset of `pointer` from `start`
(`rawOff`, `bufOff`) and by the list of bytes between `pointer` and `last` (`raw`, `buf`). The bytes before `pointer`
are never read again by the C code and are dropped. `end - start` is the constant capacity.
A store beyond the capacity is the outcome `Fail.ub`.
-/

namespace LibYaml

open LibYaml.Spec (Enc)

/-- yaml_private.h:44 `INPUT_RAW_BUFFER_SIZE` -/
def rawCap : Nat := 16384

/-- yaml_private.h:52 `INPUT_BUFFER_SIZE` -/
def bufCap : Nat := rawCap * 3

/-- yaml_private.h:76 `MAX_FILE_SIZE`, for a 64-bit `size_t` -/
def maxFileSize : Nat := (2 ^ 64 - 1) / 2

/-- A read handler (`yaml_read_handler_t`, yaml.h) over a finite byte source.
`rest` = bytes not handed out yet; `asked` = the sizes asked for so far, the latest first. -/
structure Src where
  rest : List UInt8
  asked : List Nat := []

/-- How the handler behaves, given the sizes asked for (the present one first): `none` = it reports failure, `some k` = it
would like to return `k` bytes. An arbitrary function, so every way of splitting the source into non-empty reads is
covered, and every handler with a state of its own (C76). -/
abbrev Oracle := List Nat → Option Nat

/-- The handler never reports failure. -/
def NoFail (o : Oracle) : Prop := ∀ i, o i ≠ none

/-- One call of the handler with a buffer of `size` bytes: it returns between 1 and `size` bytes while there are any
left, and 0 bytes at the end of the source. `none` = failure. -/
def Src.read (o : Oracle) (s : Src) (size : Nat) : Option (List UInt8 × Src) :=
  match o (size :: s.asked) with
  | none => none
  | some k =>
    let n := min (max 1 k) size
    some (s.rest.take n, { rest := s.rest.drop n, asked := size :: s.asked })

/-- The reader part of `yaml_parser_t` (yaml.h:1113-1180). `enc = none` is `YAML_ANY_ENCODING`. -/
structure RS where
  src : Src
  eof : Bool := false
  enc : Option Enc := none
  raw : List UInt8 := []
  rawOff : Nat := 0
  buf : List UInt8 := []
  bufOff : Nat := 0
  unread : Nat := 0
  offset : Nat := 0

/-- State after `yaml_parser_initialize` and `yaml_parser_set_input*` (api.c:176-335). -/
def RS.init (bytes : List UInt8) (enc : Option Enc) : RS := { src := { rest := bytes }, enc := enc }

/-- reader.c:94-132 `yaml_parser_update_raw_buffer` -/
def updateRaw (o : Oracle) (st : RS) : Except RFail RS :=
  if st.rawOff = 0 ∧ st.raw.length = rawCap then .ok st           -- 100-102
  else if st.eof then .ok st                                       -- 106
  else
    -- 110-117: the remaining bytes move to the beginning of the buffer
    let st := { st with rawOff := 0 }
    match st.src.read o (rawCap - st.raw.length) with              -- 121-122
    | none => .error (.reader "input error" st.offset (-1))        -- 123-124
    | some (bytes, src) =>
      let st := { st with src := src, raw := st.raw ++ bytes }     -- 126
      .ok (if bytes.isEmpty then { st with eof := true } else st)  -- 127-129

/-- reader.c:55-60, the loop of `yaml_parser_determine_encoding` that gets at least 3 bytes or the end. -/
def needThree (o : Oracle) : Nat → RS → Except RFail RS
  | 0, _ => .error .fuel
  | fuel + 1, st =>
    if !st.eof && decide (st.raw.length < 3) then
      match updateRaw o st with
      | .error e => .error e
      | .ok st => needThree o fuel st
    else .ok st

/-- reader.c:62-84: recognise a byte order mark. -/
def detectBom (st : RS) : RS :=
  if st.raw.take 2 = [0xFF, 0xFE] then
    { st with enc := some .utf16le, raw := st.raw.drop 2, rawOff := st.rawOff + 2, offset := st.offset + 2 }
  else if st.raw.take 2 = [0xFE, 0xFF] then
    { st with enc := some .utf16be, raw := st.raw.drop 2, rawOff := st.rawOff + 2, offset := st.offset + 2 }
  else if st.raw.take 3 = [0xEF, 0xBB, 0xBF] then
    { st with enc := some .utf8, raw := st.raw.drop 3, rawOff := st.rawOff + 3, offset := st.offset + 3 }
  else { st with enc := some .utf8 }

/-- reader.c:50-87 `yaml_parser_determine_encoding`. Every call of the handler returns at least one byte or sets
`eof`, so 5 rounds are enough (proved: `needThree_ok`). -/
def determineEncoding (o : Oracle) (st : RS) : Except RFail RS :=
  match needThree o 5 st with
  | .error e => .error e
  | .ok st => .ok (detectBom st)

/-- yaml_private.h:379-384 `WIDTH`, also reader.c:231-234, writer.c:86-89, emitter.c:2074-2077, api.c:637-640. -/
def width (octet : Nat) : Nat :=
  if octet &&& 0x80 = 0x00 then 1
  else if octet &&& 0xE0 = 0xC0 then 2
  else if octet &&& 0xF0 = 0xE0 then 3
  else if octet &&& 0xF8 = 0xF0 then 4 else 0

/-- reader.c:257-260: value bits of a leading octet (also writer.c:91-94, emitter.c:2078-2081, api.c:641-644). -/
def leadBits (octet : Nat) : Nat :=
  if octet &&& 0x80 = 0x00 then octet &&& 0x7F
  else if octet &&& 0xE0 = 0xC0 then octet &&& 0x1F
  else if octet &&& 0xF0 = 0xE0 then octet &&& 0x0F
  else if octet &&& 0xF8 = 0xF0 then octet &&& 0x07 else 0

/-- Result of looking at the front of the raw buffer (one round of reader.c:192-402). -/
inductive Step
  | err (problem : String) (offset : Nat) (value : Int)
  | incomplete
  | char (value width : Nat)
  deriving DecidableEq, Repr

/-- reader.c:264-278: decode the trailing octets; `k` is the index of the first of `rest`. -/
def trailing (offset : Nat) : Nat → Nat → List UInt8 → Except (Nat × Nat) Nat
  | value, _, [] => .ok value
  | value, k, b :: rest =>
    if b.toNat &&& 0xC0 ≠ 0x80 then .error (offset + k, b.toNat)
    else trailing offset ((value <<< 6) + (b.toNat &&& 0x3F)) (k + 1) rest

/-- reader.c:206-297: decode one UTF-8 character from the front of the raw buffer. -/
def stepUtf8 (eof : Bool) (offset : Nat) (raw : List UInt8) : Step :=
  match raw with
  | [] => .incomplete      -- not reached: the loop condition (192) excludes it
  | b :: rest =>
    let octet := b.toNat
    let w := width octet
    if w = 0 then .err "invalid leading UTF-8 octet" offset octet
    else if w > raw.length then
      if eof then .err "incomplete UTF-8 octet sequence" offset (-1) else .incomplete
    else
      match trailing offset (leadBits octet) 1 (rest.take (w - 1)) with
      | .error (off, v) => .err "invalid trailing UTF-8 octet" off v
      | .ok value =>
        if !(w == 1 || (w == 2 && decide (value ≥ 0x80)) || (w == 3 && decide (value ≥ 0x800))
              || (w == 4 && decide (value ≥ 0x10000))) then
          .err "invalid length of a UTF-8 sequence" offset (-1)
        else if (value ≥ 0xD800 ∧ value ≤ 0xDFFF) ∨ value > 0x10FFFF then
          .err "invalid Unicode character" offset value
        else .char value w

/-- reader.c:345-346: a 16-bit unit; `le` is `low = 0, high = 1`. -/
def unit (le : Bool) (b0 b1 : UInt8) : Nat :=
  if le then b0.toNat + (b1.toNat <<< 8) else b1.toNat + (b0.toNat <<< 8)

/-- reader.c:299-394: decode one UTF-16 character from the front of the raw buffer. -/
def stepUtf16 (le : Bool) (eof : Bool) (offset : Nat) (raw : List UInt8) : Step :=
  match raw with
  | b0 :: b1 :: rest =>
    let value := unit le b0 b1
    if value &&& 0xFC00 = 0xDC00 then .err "unexpected low surrogate area" offset value
    else if value &&& 0xFC00 = 0xD800 then
      match rest with
      | b2 :: b3 :: _ =>
        let value2 := unit le b2 b3
        if value2 &&& 0xFC00 ≠ 0xDC00 then .err "expected low surrogate area" (offset + 2) value2
        else .char (0x10000 + ((value &&& 0x3FF) <<< 10) + (value2 &&& 0x3FF)) 4
      | _ => if eof then .err "incomplete UTF-16 surrogate pair" offset (-1) else .incomplete
    else .char value 2
  | _ => if eof then .err "incomplete UTF-16 character" offset (-1) else .incomplete

/-- reader.c:204-398: the `switch` over the encoding. -/
def step (e : Enc) (eof : Bool) (offset : Nat) (raw : List UInt8) : Step :=
  match e with
  | .utf8 => stepUtf8 eof offset raw
  | .utf16le => stepUtf16 true eof offset raw
  | .utf16be => stepUtf16 false eof offset raw

/-- reader.c:411-415: the allowed range. -/
def allowed (value : Nat) : Bool :=
  value == 0x09 || value == 0x0A || value == 0x0D
    || (decide (value ≥ 0x20) && decide (value ≤ 0x7E))
    || value == 0x85 || (decide (value ≥ 0xA0) && decide (value ≤ 0xD7FF))
    || (decide (value ≥ 0xE000) && decide (value ≤ 0xFFFD))
    || (decide (value ≥ 0x10000) && decide (value ≤ 0x10FFFF))

/-- reader.c:427-448: the bytes stored in the working buffer for a character. -/
def encodeBuf (value : Nat) : List UInt8 :=
  if value ≤ 0x7F then [UInt8.ofNat value]
  else if value ≤ 0x7FF then
    [UInt8.ofNat (0xC0 + (value >>> 6)), UInt8.ofNat (0x80 + (value &&& 0x3F))]
  else if value ≤ 0xFFFF then
    [UInt8.ofNat (0xE0 + (value >>> 12)), UInt8.ofNat (0x80 + ((value >>> 6) &&& 0x3F)),
     UInt8.ofNat (0x80 + (value &&& 0x3F))]
  else
    [UInt8.ofNat (0xF0 + (value >>> 18)), UInt8.ofNat (0x80 + ((value >>> 12) &&& 0x3F)),
     UInt8.ofNat (0x80 + ((value >>> 6) &&& 0x3F)), UInt8.ofNat (0x80 + (value &&& 0x3F))]

/-- `*(parser->buffer.last++) = ...` for several bytes: undefined if they do not fit. -/
def RS.store (st : RS) (bytes : List UInt8) : Except RFail RS :=
  if st.bufOff + st.buf.length + bytes.length ≤ bufCap then .ok { st with buf := st.buf ++ bytes }
  else .error .ub

/-- reader.c:192-451: decode characters while the raw buffer holds complete ones. -/
def decodeLoop (e : Enc) : Nat → RS → Except RFail RS
  | 0, _ => .error .fuel
  | fuel + 1, st =>
    if st.raw.isEmpty then .ok st
    else
      match step e st.eof st.offset st.raw with
      | .err p o v => .error (.reader p o v)
      | .incomplete => .ok st
      | .char value w =>
        if !allowed value then
          .error (.reader "control characters are not allowed" st.offset value)
        else
          let st := { st with raw := st.raw.drop w, rawOff := st.rawOff + w, offset := st.offset + w }
          match st.store (encodeBuf value) with
          | .error e => .error e
          | .ok st => decodeLoop e fuel { st with unread := st.unread + 1 }

/-- reader.c:181-461: fill the buffer until it has `length` characters. The final size check (463-466) is in
`updateBuffer`. The Boolean result tells whether the loop was left by the `return` of line 458. -/
def fillLoop (o : Oracle) (e : Enc) (length : Nat) : Nat → Bool → RS → Except RFail (RS × Bool)
  | 0, _, _ => .error .fuel
  | fuel + 1, first, st =>
    if st.unread < length then
      match (if !first || st.raw.isEmpty then updateRaw o st else .ok st) with
      | .error e => .error e
      | .ok st =>
        match decodeLoop e (st.raw.length + 1) st with
        | .error e => .error e
        | .ok st =>
          if st.eof then
            match st.store [0] with
            | .error e => .error e
            | .ok st => .ok ({ st with unread := st.unread + 1 }, true)
          else fillLoop o e length fuel false st
    else .ok (st, false)

/-- reader.c:167-177: move the unread characters to the beginning of the working buffer. When the buffer is
non-empty and `pointer = start` nothing moves. -/
def moveBuf (st : RS) : RS := { st with bufOff := 0 }

/-- reader.c:160-163: determine the input encoding if it is not known yet. -/
def ensureEncoding (o : Oracle) (st : RS) : Except RFail RS :=
  match st.enc with
  | none => determineEncoding o st
  | some _ => .ok st

/-- reader.c:141-469 `yaml_parser_update_buffer`. The assertion (146) that a handler is set is part of the
representation. -/
def updateBuffer (o : Oracle) (st : RS) (length : Nat) : Except RFail RS :=
  if st.eof ∧ st.raw.isEmpty then .ok st                          -- 150-151
  else if st.unread ≥ length then .ok st                          -- 155-156
  else
    match ensureEncoding o st with                                 -- 160-163
    | .error e => .error e
    | .ok st =>
      match st.enc with
      | none => .error .ub
      | some e =>
        let st := moveBuf st
        match fillLoop o e length (st.src.rest.length + 3) true st with
        | .error e => .error e
        | .ok (st, true) => .ok st
        | .ok (st, false) =>
          if st.offset ≥ maxFileSize then .error (.reader "input is too long" st.offset (-1))
          else .ok st

/-- scanner.c:486-489 `CACHE(parser, length)`: refill only if needed. -/
def cacheR (o : Oracle) (st : RS) (length : Nat) : Except RFail RS :=
  if st.unread ≥ length then .ok st else updateBuffer o st length

/-- The buffer side of scanner.c:495-499 `SKIP`: step over one character (`WIDTH` bytes) of the working buffer.
Undefined if no unread character is there (`unread` would wrap and `pointer` would pass `last`). -/
def skipR (st : RS) : Except RFail RS :=
  match st.buf with
  | [] => .error .ub
  | b :: _ =>
    let w := width b.toNat
    if st.unread = 0 ∨ w = 0 ∨ w > st.buf.length then .error .ub
    else .ok { st with buf := st.buf.drop w, bufOff := st.bufOff + w, unread := st.unread - 1 }

/-- The reader states a client can reach by requests of at most 6144 characters and by skips, `k` being the number of
characters skipped. -/
inductive Reach (o : Oracle) (enc : Option Enc) (bytes : List UInt8) : Nat → RS → Prop
  | init : Reach o enc bytes 0 (RS.init bytes enc)
  | cache {k st st'} (n : Nat) (hn : n ≤ 6144) : Reach o enc bytes k st → cacheR o st n = .ok st' →
      Reach o enc bytes k st'
  | skip {k st st'} : Reach o enc bytes k st → skipR st = .ok st' → Reach o enc bytes (k + 1) st'

end LibYaml
