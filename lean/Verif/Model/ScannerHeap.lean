import Verif.Model.LoaderHeap
import Verif.Model.ParserHeap

/-!
# The scanner on the heap (`src/scanner.c`, and the parser object of `src/api.c`)

In `Model/Lexer.lean` and `Model/Scanner.lean` the strings that the scanner builds, the queue of tokens and the stacks of the scanner are values. Here
they live in the heap, every allocation may fail, and what the `error` labels of the C functions free is written out. The input is the reader of
`Model/Reader.lean`; its two buffers are blocks without content. Parts of the scanner that use no memory of their own (white space, comments, numbers
of version directives) are those of `Model/Lexer.lean`.
-/

namespace LibYaml

/-! ### Programs -/

/-- Programs over the heap with a state. They may fail; `none` is a function that returns 0 without setting `parser->error`. Undefined behaviour is
an error of the heap program itself. -/
def XM (σ α : Type) := σ → HM (Except (Option Fail) α × σ)

section
variable {σ α β : Type}

def XM.bind (m : XM σ α) (k : α → XM σ β) : XM σ β := fun x h =>
  match m x h with
  | .error e => .error e
  | .ok ((.error e, x), h) => .ok ((.error e, x), h)
  | .ok ((.ok a, x), h) => k a x h

instance : Monad (XM σ) where
  pure a := fun x h => .ok ((.ok a, x), h)
  bind := XM.bind

/-- `return 0` -/
def xfail (e : Option Fail) : XM σ α := fun x h => .ok ((.error e, x), h)

/-- A program that does not touch the state. -/
def xlift (m : HM α) : XM σ α := fun x h =>
  match m h with
  | .error e => .error e
  | .ok (a, h) => .ok ((.ok a, x), h)

/-- Read the state. -/
def xget (f : σ → α) : XM σ α := fun x h => .ok ((.ok (f x), x), h)

/-- Change the state. -/
def xmod (f : σ → σ) : XM σ Unit := fun x h => .ok ((.ok (), f x), h)

/-- Undefined behaviour, or a loop of the model that ran out of fuel. -/
def xstop (e : Fail) : XM σ α := fun _ _ => .error e

/-- `if (!m) goto error`, where the label `error` frees what is held by local variables. -/
def xorFree (m : XM σ α) (clean : HM Unit) : XM σ α := fun x h =>
  match m x h with
  | .error e => .error e
  | .ok ((.error e, x), h) =>
    match clean h with
    | .error e => .error e
    | .ok (_, h) => .ok ((.error e, x), h)
  | .ok ((.ok a, x), h) => .ok ((.ok a, x), h)

end

/-! ### Strings -/

/-- yaml_private.h:108-112 `yaml_string_t`: the block, and the offset of `pointer`; `end` is the end of the block. -/
structure HStr where
  start : Ptr := none
  ptr : Nat := 0
  deriving DecidableEq, Repr

/-- The local string variables of the scanning functions: `string`, `leading_break`, `trailing_breaks`, `whitespaces`. -/
inductive Reg
  | str | lead | trail | white
  deriving DecidableEq, Repr

/-- What a scanning function works on: `parser->mark`, the reader, and its strings. -/
structure LX where
  mark : Mark
  inp : RS
  regs : Reg → HStr := fun _ => {}

abbrev HL := XM LX

/-- A part of the scanner that uses no memory of its own. -/
def hin {α : Type} (o : Oracle) (x : Lex α) : HL α := fun s h =>
  match (x s.mark).runR o s.inp with
  | .ok ((a, m), i) => .ok ((.ok a, { s with mark := m, inp := i }), h)
  | .error .ub => .error .ub
  | .error .fuel => .error .fuel
  | .error e => .ok ((.error (some e), s), h)

def LX.set (r : Reg) (v : HStr) (x : LX) : LX := { x with regs := fun q => if q = r then v else x.regs q }

/-- The bytes of a block. -/
def bufOf (p : Ptr) : HM (List UInt8) := do
  match ← loadObj p with
  | .bytes b => return b
  | _ => fun _ => .error .ub

/-- yaml_private.h:130-137 `STRING_INIT` with `INITIAL_STRING_SIZE` -/
def sInit (r : Reg) : HL Unit := fun x => do
  match ← malloc (.bytes (List.replicate 16 0)) with
  | none => return (.error (some .memory), x)
  | some p => return (.ok (), x.set r { start := some p })

/-- yaml_private.h:139-141 `STRING_DEL` -/
def sDel (r : Reg) : HL Unit := fun x => do
  free (x.regs r).start
  return (.ok (), x.set r {})

/-- api.c:73-88 `yaml_string_extend`: the new half is cleared. -/
def sExtend (r : Reg) : HL Unit := fun x => do
  let mem ← bufOf (x.regs r).start
  match ← malloc (.bytes (mem ++ List.replicate mem.length 0)) with
  | none => return (.error (some .memory), x)
  | some p => do
    free (x.regs r).start
    return (.ok (), x.set r { x.regs r with start := some p })

/-- yaml_private.h:143-149 `STRING_EXTEND` -/
def sRoom (r : Reg) : HL Unit := fun x => do
  let mem ← bufOf (x.regs r).start
  if (x.regs r).ptr + 5 < mem.length then return (.ok (), x) else sExtend r x

/-- Stores at `pointer`, which is moved (`*(string.pointer++) = ...`, `memcpy`). -/
def sStore (r : Reg) (bytes : List UInt8) : HL Unit := fun x => do
  match memcpy (← bufOf (x.regs r).start) (x.regs r).ptr bytes with
  | .error e => fun _ => .error e
  | .ok mem => do
    store (x.regs r).start (.bytes mem)
    return (.ok (), x.set r { x.regs r with ptr := (x.regs r).ptr + bytes.length })

/-- yaml_private.h:151-153 `CLEAR` -/
def sClear (r : Reg) : HL Unit := fun x => do
  let mem ← bufOf (x.regs r).start
  store (x.regs r).start (.bytes (List.replicate mem.length 0))
  return (.ok (), x.set r { x.regs r with ptr := 0 })

/-- Is there no room for `n` bytes and a NUL? -/
def sShort (r : Reg) (n : Nat) : HL Bool := fun x => do
  let mem ← bufOf (x.regs r).start
  return (.ok (decide (mem.length - (x.regs r).ptr ≤ n)), x)

/-- `while (end - pointer <= n) yaml_string_extend(...)` (api.c:102-105, scanner.c:2582-2587, where `pointer` is `start`). -/
def sGrow (r : Reg) (n : Nat) : Nat → HL Unit
  | 0 => xstop .fuel
  | f + 1 => do
    if ← sShort r n then do
      sExtend r
      sGrow r n f
    else return ()

/-- The bytes from `start` to `pointer`. -/
def sBytes (r : Reg) : HL (List UInt8) := fun x => do
  match memread (← bufOf (x.regs r).start) 0 (x.regs r).ptr with
  | .error e => fun _ => .error e
  | .ok bytes => return (.ok bytes, x)

/-- `string.pointer - string.start` -/
def sLen (r : Reg) : HL Nat := xget fun x => (x.regs r).ptr

/-- yaml_private.h:155-164 `JOIN` with api.c:94-112 `yaml_string_join`: the second string is rewound, its bytes stay. -/
def sJoin (r q : Reg) : HL Unit := do
  let n ← sLen q
  if n = 0 then return ()
  else do
    sGrow r n (n + 2)
    let bytes ← sBytes q
    sStore r bytes
    xmod fun x => x.set q { x.regs q with ptr := 0 }

/-- `string.start[i]` -/
def sByte (r : Reg) (i : Nat) : HL UInt8 := fun x => do
  match (← bufOf (x.regs r).start)[i]? with
  | some b => return (.ok b, x)
  | none => fun _ => .error .ub

/-- The string leaves the function: `*name = string.start`, or it becomes part of a token. -/
def sTake (r : Reg) : HL HStr := do
  let s ← xget fun x => x.regs r
  xmod fun x => x.set r {}
  return s

/-- The label `error` of a function with these strings. -/
def sDelAll : List Reg → LX → HM Unit
  | [], _ => return ()
  | r :: rs, x => do
    free (x.regs r).start
    sDelAll rs x

/-- `if (!m) goto error`, where the label `error` deletes the strings. -/
def orDel {α : Type} (rs : List Reg) (m : HL α) : HL α := fun x h =>
  match m x h with
  | .error e => .error e
  | .ok ((.error e, x), h) =>
    match sDelAll rs x h with
    | .error e => .error e
    | .ok (_, h) => .ok ((.error e, { x with regs := fun _ => {} }), h)
  | .ok ((.ok a, x), h) => .ok ((.ok a, x), h)

section
variable (o : Oracle)

/-- The bytes of the current character, as `COPY` (yaml_private.h:396-417) finds them in the buffer. -/
def curBytes : HL (List UInt8) := do
  let _ ← hin o (peekC 0)
  let i ← xget fun x => x.inp
  match i.buf with
  | [] => xstop .ub
  | b :: _ => return i.buf.take (width b.toNat)

/-- scanner.c:519-525 `READ` -/
def sRead (r : Reg) : HL Unit := do
  sRoom r
  let bytes ← curBytes o
  sStore r bytes
  hin o skipC

/-- scanner.c:531-572 `READ_LINE`: CR LF, CR, LF and NEL are stored as LF; LS and PS are copied. -/
def sReadLine (r : Reg) : HL Unit := do
  sRoom r
  let c ← hin o (peekC 0)
  if c == 0xD then do
    let d ← hin o (peekC 1)
    sStore r [0xA]
    hin o (passBreak (if d == 0xA then 2 else 1))
  else if c == 0xA || c == 0x85 then do
    sStore r [0xA]
    hin o (passBreak 1)
  else if c == 0x2028 || c == 0x2029 then do
    let bytes ← curBytes o
    sStore r bytes
    hin o (passBreak 1)
  else return ()

/-- `while (p(parser->buffer)) { READ(parser, s); if (!CACHE(parser, 1)) goto error; }`; the result counts the characters. -/
def sReadWhile (p : Nat → Bool) (r : Reg) : Nat → Nat → HL Nat
  | 0, _ => xstop .fuel
  | n + 1, len => do
    if p (← hin o (peekC 0)) then do
      sRead o r
      hin o (cacheC 1)
      sReadWhile p r n (len + 1)
    else return len

/-! ### Directives, anchors and tags -/

/-- scanner.c:2111-2152 `yaml_parser_scan_directive_name` -/
def hDirectiveName (f : Nat) (start : Mark) : HL Ptr := orDel [.str] do
  sInit .str
  hin o (cacheC 1)
  let _ ← sReadWhile o isAlpha .str f 0
  if (← sLen .str) = 0 then
    hin o (lexErr (some "while scanning a directive") start "could not find expected directive name")
  else if isBlankz (← hin o (peekC 0)) then do return (← sTake .str).start
  else hin o (lexErr (some "while scanning a directive") start "found unexpected non-alphabetical character")

/-- scanner.c:2503-2564 `yaml_parser_scan_tag_handle` -/
def hTagHandle (f : Nat) (directive : Bool) (start : Mark) : HL Ptr := orDel [.str] do
  sInit .str
  hin o (cacheC 1)
  if (← hin o (peekC 0)) == c! '!' then do
    sRead o .str
    hin o (cacheC 1)
    let _ ← sReadWhile o isAlpha .str f 0
    if (← hin o (peekC 0)) == c! '!' then do
      sRead o .str
      return (← sTake .str).start
    else if directive && !((← sByte .str 0) == 0x21 && (← sByte .str 1) == 0) then
      hin o (lexErr (some "while parsing a tag directive") start "did not find expected '!'")
    else return (← sTake .str).start
  else
    hin o (lexErr (some (if directive then "while scanning a tag directive" else "while scanning a tag")) start
      "did not find expected '!'")

/-- scanner.c:2680-2730: the trailing octets; `w` of them remain. -/
def hTrailing (directive : Bool) (start : Mark) : Nat → HL Unit
  | 0 => return ()
  | w + 1 => do
    let c ← hin o (scanOctet directive start)
    if 0x80 ≤ c ∧ c < 0xC0 then do
      sStore .str [UInt8.ofNat c]
      hin o skipC
      hin o skipC
      hin o skipC
      hTrailing directive start w
    else hin o (lexErr (uriContext directive) start "found an incorrect trailing UTF-8 octet")

/-- scanner.c:2671-2731 `yaml_parser_scan_uri_escapes` -/
def hUriEscapes (directive : Bool) (start : Mark) : HL Unit := do
  let c ← hin o (scanOctet directive start)
  if octetWidth c = 0 then hin o (lexErr (uriContext directive) start "found an incorrect leading UTF-8 octet")
  else do
    sStore .str [UInt8.ofNat c]
    hin o skipC
    hin o skipC
    hin o skipC
    hTrailing o directive start (octetWidth c - 1)

/-- scanner.c:2613-2645: the loop of `yaml_parser_scan_tag_uri`; `len` is `length`. -/
def hUriLoop (uriChar directive : Bool) (start : Mark) : Nat → Nat → HL Nat
  | 0, _ => xstop .fuel
  | n + 1, len => do
    let c ← hin o (peekC 0)
    if isUri uriChar c then do
      if c == c! '%' then do
        sRoom .str
        hUriEscapes o directive start
        hin o (cacheC 1)
        hUriLoop uriChar directive start n (len + 1)
      else do
        sRead o .str
        hin o (cacheC 1)
        hUriLoop uriChar directive start n (len + 1)
    else return len

/-- `strlen((char *)head)` and the bytes, for a pointer that may be `NULL`. -/
def headBytes (head : Ptr) : HM (List UInt8) := do
  if head.isNone then return []
  else do
    let mem ← bufOf head
    bytesOf mem (← strlen mem)

/-- scanner.c:2570-2665 `yaml_parser_scan_tag_uri` -/
def hTagUri (f : Nat) (uriChar directive : Bool) (head : Ptr) (start : Mark) : HL Ptr := orDel [.str] do
  let hb ← xlift (headBytes head)
  sInit .str
  sGrow .str hb.length (hb.length + 2)
  (if 1 < hb.length then sStore .str (hb.drop 1) else return () : HL Unit)
  hin o (cacheC 1)
  let len ← hUriLoop o uriChar directive start f hb.length
  if len = 0 then do
    sRoom .str
    hin o (lexErr (uriContext directive) start "did not find expected tag URI")
  else return (← sTake .str).start

/-- scanner.c:2256-2314 `yaml_parser_scan_tag_directive_value` -/
def hTagDirValue (f : Nat) (start : Mark) : HL (Ptr × Ptr) := do
  hin o (cacheC 1)
  hin o (skipWhile isBlank f)
  let handle ← hTagHandle o f true start
  xorFree (do
    hin o (cacheC 1)
    if isBlank (← hin o (peekC 0)) then do
      hin o (skipWhile isBlank f)
      let pfx ← hTagUri o f true true none start
      xorFree (do
        hin o (cacheC 1)
        if isBlankz (← hin o (peekC 0)) then return (handle, pfx)
        else hin o (lexErr (some "while scanning a %TAG directive") start "did not find expected whitespace or line break")) (free pfx)
    else hin o (lexErr (some "while scanning a %TAG directive") start "did not find expected whitespace")) (free handle)

/-- `strcmp((char *)p, ...)`: the bytes before the NUL. -/
def cString (p : Ptr) : HM (List UInt8) := do
  let mem ← bufOf p
  bytesOf mem (← strlen mem)

/-- scanner.c:1995-2099 `yaml_parser_scan_directive` -/
def hDirective (f : Nat) : HL HToken := do
  let start ← xget LX.mark
  hin o skipC
  let name ← hDirectiveName o f start
  xorFree (do
    let n ← xlift (cString name)
    if n == [0x59, 0x41, 0x4D, 0x4C] then do
      let v ← hin o (scanVersionValue f start)
      let stop ← xget LX.mark
      hin o (finishLine f "while scanning a directive" start)
      xlift (free name)
      return { data := .plain (.versionDirective v), start := start, stop := stop }
    else if n == [0x54, 0x41, 0x47] then do
      let d ← hTagDirValue o f start
      let stop ← xget LX.mark
      xorFree (hin o (finishLine f "while scanning a directive" start)) (do free d.2; free d.1)
      xlift (free name)
      return { data := .tagDirective d.1 d.2, start := start, stop := stop }
    else hin o (lexErr (some "while scanning a directive") start "found unknown directive name")) (free name)

/-- scanner.c:2320-2380 `yaml_parser_scan_anchor` -/
def hAnchorToken (f : Nat) (anchor : Bool) : HL HToken := orDel [.str] do
  sInit .str
  let start ← xget LX.mark
  hin o skipC
  hin o (cacheC 1)
  let len ← sReadWhile o isAlpha .str f 0
  let stop ← xget LX.mark
  if len != 0 && endsAnchor (← hin o (peekC 0)) then do
    let s ← sTake .str
    return { data := if anchor then .anchor s.start else .alias s.start, start := start, stop := stop }
  else
    hin o (lexErr (some (if anchor then "while scanning an anchor" else "while scanning an alias")) start
      "did not find expected alphabetic or numeric character")

/-- scanner.c:2428: `handle[0] == '!' && handle[1] != '\0' && handle[strlen((char *)handle)-1] == '!'` -/
def isHandle (p : Ptr) : HM Bool := do
  let mem ← bufOf p
  let n ← strlen mem
  match mem[0]?, mem[1]?, mem[n - 1]? with
  | some a, some b, some c => return a == 0x21 && b != 0 && c == 0x21
  | _, _, _ => fun _ => .error .ub

/-- scanner.c:2397-2463: handle and suffix. If the two small allocations fail, `parser->error` is not set. -/
def hTagBody (f : Nat) (start : Mark) : HL (Ptr × Ptr) := do
  hin o (cacheC 2)
  if (← hin o (peekC 1)) == c! '<' then do
    let handle ← xlift (malloc (.bytes [0]))
    if handle.isNone then xfail none
    else
      xorFree (do
        hin o skipC
        hin o skipC
        let suffix ← hTagUri o f true false none start
        xorFree (do
          if (← hin o (peekC 0)) == c! '>' then do
            hin o skipC
            return (handle, suffix)
          else hin o (lexErr (some "while scanning a tag") start "did not find the expected '>'")) (free suffix)) (free handle)
  else do
    let handle ← hTagHandle o f false start
    if ← xlift (isHandle handle) then do
      let suffix ← xorFree (hTagUri o f false false none start) (free handle)
      return (handle, suffix)
    else do
      let suffix ← xorFree (hTagUri o f false false handle start) (free handle)
      xlift (free handle)
      let handle ← xlift (malloc (.bytes [0x21, 0]))
      if handle.isNone then xorFree (xfail none) (free suffix)
      else do
        match (← xlift (bufOf suffix))[0]? with
        | none => xstop .ub
        | some b => if b == 0 then return (suffix, handle) else return (handle, suffix)

/-- scanner.c:2386-2497 `yaml_parser_scan_tag` -/
def hTagToken (f : Nat) (flow : Bool) : HL HToken := do
  let start ← xget LX.mark
  let d ← hTagBody o f start
  xorFree (do
    hin o (cacheC 1)
    let c ← hin o (peekC 0)
    if isBlankz c || (flow && c == c! ',') then do
      let stop ← xget LX.mark
      return { data := .tag d.1 d.2, start := start, stop := stop }
    else hin o (lexErr (some "while scanning a tag") start "did not find expected whitespace or line break")) (do free d.1; free d.2)

/-! ### Block scalars -/

/-- scanner.c:2976-3010: the loop of `yaml_parser_scan_block_scalar_breaks`; results `(max_indent, end_mark)`. -/
def hBreaksLoop (f : Nat) (start : Mark) (indent : Int) : Nat → Nat → Mark → HL (Nat × Mark)
  | 0, _, _ => xstop .fuel
  | n + 1, maxIndent, stop => do
    hin o (cacheC 1)
    hin o (skipIndent indent f)
    let col ← xget fun x => x.mark.column
    let maxIndent := if col > maxIndent then col else maxIndent
    let c ← hin o (peekC 0)
    if (indent = 0 ∨ col < indent) ∧ isTab c then
      hin o (lexErr (some "while scanning a block scalar") start "found a tab character where an indentation space is expected")
    else if isBreak c then do
      hin o (cacheC 2)
      sReadLine o .trail
      let stop ← xget LX.mark
      hBreaksLoop f start indent n maxIndent stop
    else return (maxIndent, stop)

/-- scanner.c:2962-3022 `yaml_parser_scan_block_scalar_breaks`; results `(indent, end_mark)`. -/
def hBreaks (f : Nat) (start : Mark) (parserIndent indent : Int) : HL (Int × Mark) := do
  let m ← xget LX.mark
  let r ← hBreaksLoop o f start indent f 0 m
  return (if indent = 0 then foundIndent parserIndent r.1 else indent, r.2)

/-- scanner.c:2868-2895: join the previous line to the next one. -/
def hBlockJoin (literal leadingBlank trailingBlank : Bool) : HL Unit := do
  if !literal && (← sByte .lead 0) == 0xA && !leadingBlank && !trailingBlank then do
    (if (← sByte .trail 0) == 0 then do
      sRoom .str
      sStore .str [0x20]
    else return () : HL Unit)
    sClear .lead
    sJoin .str .trail
    sClear .trail
  else do
    sJoin .str .lead
    sClear .lead
    sJoin .str .trail
    sClear .trail

/-- scanner.c:2857-2915: the content lines; the result is `end_mark`. -/
def hBlockLines (f : Nat) (start : Mark) (parserIndent : Int) (literal : Bool) (indent : Int) : Nat → Bool → Mark → HL Mark
  | 0, _, _ => xstop .fuel
  | n + 1, leadingBlank, stop => do
    if (← xget fun x => x.mark.column) = indent then do
      let c ← hin o (peekC 0)
      if isZ c then return stop
      else do
        hBlockJoin literal leadingBlank (isBlank c)
        let _ ← sReadWhile o (fun c => !isBreakz c) .str f 0
        hin o (cacheC 2)
        sReadLine o .lead
        let r ← hBreaks o f start parserIndent indent
        hBlockLines f start parserIndent literal r.1 n (isBlank c) r.2
    else return stop

/-- scanner.c:2917-2925: chomping. -/
def hChomp (chomp : Chomp) : HL Unit :=
  match chomp with
  | .strip => return ()
  | .clip => sJoin .str .lead
  | .keep => do
    sJoin .str .lead
    sJoin .str .trail

/-- scanner.c:2740-2954 `yaml_parser_scan_block_scalar` -/
def hBlockToken (f : Nat) (parserIndent : Int) (literal : Bool) : HL HToken := orDel [.str, .lead, .trail] do
  sInit .str
  sInit .lead
  sInit .trail
  let start ← xget LX.mark
  hin o skipC
  let hd ← hin o (scanBlockHeader start)
  hin o (finishLine f "while scanning a block scalar" start)
  let indent : Int := if hd.2 = 0 then 0 else if parserIndent ≥ 0 then parserIndent + hd.2 else hd.2
  let r ← hBreaks o f start parserIndent indent
  hin o (cacheC 1)
  let stop ← hBlockLines o f start parserIndent literal r.1 f false r.2
  hChomp hd.1
  sDel .lead
  sDel .trail
  let s ← sTake .str
  return { data := .scalar s.start s.ptr (if literal then .literal else .folded), start := start, stop := stop }

/-! ### Quoted scalars -/

/-- scanner.c:3118-3280: an escape sequence other than an escaped line break. -/
def hEscape (start : Mark) : HL Unit := do
  sRoom .str
  let c ← hin o (peekC 1)
  match simpleEscape c with
  | some v => do
    sStore .str (encodeBuf v)
    hin o skipC
    hin o skipC
  | none =>
    match codeLength c with
    | none => hin o (lexErr (some "while parsing a quoted scalar") start "found unknown escape character")
    | some len => do
      hin o skipC
      hin o skipC
      hin o (cacheC len)
      let v ← hin o (hexValue start len 0 0)
      if (0xD800 ≤ v ∧ v ≤ 0xDFFF) ∨ v > 0x10FFFF then
        hin o (lexErr (some "while parsing a quoted scalar") start "found invalid Unicode character escape code")
      else do
        sStore .str (encodeBuf v)
        hin o (skipN len)

/-- scanner.c:3080-3290: the non-blank characters; the flag is `leading_blanks`. -/
def hFlowChars (start : Mark) (single : Bool) : Nat → HL Bool
  | 0 => xstop .fuel
  | n + 1 => do
    let c ← hin o (peekC 0)
    if isBlankz c then return false
    else if single then do
      if c == c! '\'' then do
        if (← hin o (peekC 1)) == c! '\'' then do
          sRoom .str
          sStore .str [0x27]
          hin o skipC
          hin o skipC
          hin o (cacheC 2)
          hFlowChars start single n
        else return false
      else do
        sRead o .str
        hin o (cacheC 2)
        hFlowChars start single n
    else if c == c! '"' then return false
    else if c == c! '\\' then do
      if isBreak (← hin o (peekC 1)) then do
        hin o (cacheC 3)
        hin o skipC
        hin o skipLine
        return true
      else do
        hEscape o start
        hin o (cacheC 2)
        hFlowChars start single n
    else do
      sRead o .str
      hin o (cacheC 2)
      hFlowChars start single n

/-- scanner.c:3300-3337: the blanks of a quoted scalar; the flag is `leading_blanks`. -/
def hFlowBlanks : Nat → Bool → HL Bool
  | 0, _ => xstop .fuel
  | n + 1, blanks => do
    let c ← hin o (peekC 0)
    if isBlank c then do
      if blanks then do
        hin o skipC
        hin o (cacheC 1)
        hFlowBlanks n blanks
      else do
        sRead o .white
        hin o (cacheC 1)
        hFlowBlanks n blanks
    else if isBreak c then do
      hin o (cacheC 2)
      if blanks then do
        sReadLine o .trail
        hin o (cacheC 1)
        hFlowBlanks n blanks
      else do
        sClear .white
        sReadLine o .lead
        hin o (cacheC 1)
        hFlowBlanks n true
    else return blanks

/-- scanner.c:3340-3367, 3489-3515: fold or copy the gap. -/
def hJoinGap (blanks : Bool) : HL Unit := do
  if blanks then do
    if (← sByte .lead 0) == 0xA then do
      (if (← sByte .trail 0) == 0 then do
        sRoom .str
        sStore .str [0x20]
      else do
        sJoin .str .trail
        sClear .trail : HL Unit)
      sClear .lead
    else do
      sJoin .str .lead
      sJoin .str .trail
      sClear .lead
      sClear .trail
  else do
    sJoin .str .white
    sClear .white

/-- scanner.c:3050-3370: the content of a quoted scalar up to the closing quote. -/
def hFlowBody (f : Nat) (start : Mark) (single : Bool) : Nat → HL Unit
  | 0 => xstop .fuel
  | n + 1 => do
    hin o (cacheC 4)
    if ← hin o docIndicator then
      hin o (lexErr (some "while scanning a quoted scalar") start "found unexpected document indicator")
    else if isZ (← hin o (peekC 0)) then
      hin o (lexErr (some "while scanning a quoted scalar") start "found unexpected end of stream")
    else do
      hin o (cacheC 2)
      let blanks ← hFlowChars o start single f
      hin o (cacheC 1)
      if (← hin o (peekC 0)) == (if single then c! '\'' else c! '"') then return ()
      else do
        let blanks ← hFlowBlanks o f blanks
        hJoinGap blanks
        hFlowBody f start single n

/-- scanner.c:3024-3391 `yaml_parser_scan_flow_scalar` -/
def hFlowToken (f : Nat) (single : Bool) : HL HToken := orDel [.str, .lead, .trail, .white] do
  sInit .str
  sInit .lead
  sInit .trail
  sInit .white
  let start ← xget LX.mark
  hin o skipC
  hFlowBody o f start single f
  hin o skipC
  let stop ← xget LX.mark
  sDel .lead
  sDel .trail
  sDel .white
  let s ← sTake .str
  return { data := .scalar s.start s.ptr (if single then .single else .double), start := start, stop := stop }

/-! ### Plain scalars -/

/-- scanner.c:3482-3520: join the gap, if there is one. -/
def hPlainJoin (blanks : Bool) : HL Unit := do
  if blanks then hJoinGap true
  else do
    if (← sLen .white) ≠ 0 then hJoinGap false else return ()

/-- scanner.c:3443-3530: the non-blank characters of a plain scalar; results `(leading_blanks, end_mark)`. -/
def hPlainChars (start : Mark) (flow : Bool) : Nat → Bool → Mark → HL (Bool × Mark)
  | 0, _, _ => xstop .fuel
  | n + 1, blanks, stop => do
    let c ← hin o (peekC 0)
    if isBlankz c then return (blanks, stop)
    else if c == c! ':' then do
      let d ← hin o (peekC 1)
      if flow && (isFlowIndicator d || d == c! '?') then
        hin o (lexErr (some "while scanning a plain scalar") start "found unexpected ':'")
      else if isBlankz d then return (blanks, stop)
      else do
        hPlainJoin blanks
        sRead o .str
        let stop ← xget LX.mark
        hin o (cacheC 2)
        hPlainChars start flow n false stop
    else if flow && isFlowIndicator c then return (blanks, stop)
    else do
      hPlainJoin blanks
      sRead o .str
      let stop ← xget LX.mark
      hin o (cacheC 2)
      hPlainChars start flow n false stop

/-- scanner.c:3540-3585: the blanks of a plain scalar; the flag is `leading_blanks`. -/
def hPlainBlanks (start : Mark) (indent : Int) : Nat → Bool → HL Bool
  | 0, _ => xstop .fuel
  | n + 1, blanks => do
    let c ← hin o (peekC 0)
    if isBlank c then do
      if blanks then do
        let col ← xget fun x => x.mark.column
        if col < indent ∧ isTab c then
          hin o (lexErr (some "while scanning a plain scalar") start "found a tab character that violates indentation")
        else do
          hin o skipC
          hin o (cacheC 1)
          hPlainBlanks start indent n blanks
      else do
        sRead o .white
        hin o (cacheC 1)
        hPlainBlanks start indent n blanks
    else if isBreak c then do
      hin o (cacheC 2)
      if blanks then do
        sReadLine o .trail
        hin o (cacheC 1)
        hPlainBlanks start indent n blanks
      else do
        sClear .white
        sReadLine o .lead
        hin o (cacheC 1)
        hPlainBlanks start indent n true
    else return blanks

/-- scanner.c:3423-3590: the content of a plain scalar; results `(leading_blanks, end_mark)`. -/
def hPlainBody (f : Nat) (start : Mark) (flow : Bool) (indent : Int) : Nat → Bool → Mark → HL (Bool × Mark)
  | 0, _, _ => xstop .fuel
  | n + 1, blanks, stop => do
    hin o (cacheC 4)
    if ← hin o docIndicator then return (blanks, stop)
    else if (← hin o (peekC 0)) == c! '#' then return (blanks, stop)
    else do
      let r ← hPlainChars o start flow f blanks stop
      let c ← hin o (peekC 0)
      if isBlank c || isBreak c then do
        hin o (cacheC 1)
        let blanks ← hPlainBlanks o start indent f r.1
        let col ← xget fun x => x.mark.column
        if !flow && decide (col < indent) then return (blanks, r.2)
        else hPlainBody f start flow indent n blanks r.2
      else return r

/-- scanner.c:3397-3598 `yaml_parser_scan_plain_scalar`; the flag says whether a simple key is allowed afterwards. -/
def hPlainToken (f : Nat) (parserIndent : Int) (flow : Bool) : HL (HToken × Bool) := orDel [.str, .lead, .trail, .white] do
  sInit .str
  sInit .lead
  sInit .trail
  sInit .white
  let start ← xget LX.mark
  let r ← hPlainBody o f start flow (parserIndent + 1) f false start
  sDel .lead
  sDel .trail
  sDel .white
  let s ← sTake .str
  return ({ data := .scalar s.start s.ptr .plain, start := start, stop := r.2 }, r.1)

end

end LibYaml
