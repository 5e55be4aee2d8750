import Verif.Model.Prog
import Verif.Model.Types

/-!
# Model of the lexical part of the scanner (`src/scanner.c:480-540` and `1919-3600`)

Programs over the character buffer with the current mark as state. Simplifications:

* the strings being built are lists of code points, so `STRING_EXTEND` and allocation failures disappear;
* marks are unbounded, so the casts `(int)parser->mark.column` never wrap;
* loops take fuel; running out of it is the outcome `fuel`, shown unreachable for fuel above the input length.

A character is written `c! 'x'`; this is the numeral of its code point.
-/

namespace LibYaml

/-- The code point of a character literal, as a numeral. -/
syntax "c! " char : term
macro_rules
  | `(c! $c:char) => return Lean.Syntax.mkNumLit (toString c.getChar.toNat)

/-! ### Character classes (yaml_private.h:174-373), on decoded characters -/

/-- yaml_private.h:186-200 `IS_ALPHA` -/
def isAlpha (c : Nat) : Bool :=
  (c! '0' ≤ c && c ≤ c! '9') || (c! 'A' ≤ c && c ≤ c! 'Z') || (c! 'a' ≤ c && c ≤ c! 'z') || c == c! '_' || c == c! '-'

/-- yaml_private.h:206-210 `IS_DIGIT` -/
def isDigit (c : Nat) : Bool := c! '0' ≤ c && c ≤ c! '9'

/-- yaml_private.h:216-219 `AS_DIGIT` -/
def asDigit (c : Nat) : Nat := c - c! '0'

/-- yaml_private.h:225-233 `IS_HEX` -/
def isHex (c : Nat) : Bool :=
  (c! '0' ≤ c && c ≤ c! '9') || (c! 'A' ≤ c && c ≤ c! 'F') || (c! 'a' ≤ c && c ≤ c! 'f')

/-- yaml_private.h:239-249 `AS_HEX` -/
def asHex (c : Nat) : Nat :=
  if c! 'A' ≤ c && c ≤ c! 'F' then c - c! 'A' + 10
  else if c! 'a' ≤ c && c ≤ c! 'f' then c - c! 'a' + 10
  else c - c! '0'

/-- yaml_private.h:285-287 `IS_Z` -/
def isZ (c : Nat) : Bool := c == 0
/-- yaml_private.h:293-298 `IS_BOM` -/
def isBom (c : Nat) : Bool := c == 0xFEFF
/-- yaml_private.h:304-306 `IS_SPACE` -/
def isSpace (c : Nat) : Bool := c == 0x20
/-- yaml_private.h:312-314 `IS_TAB` -/
def isTab (c : Nat) : Bool := c == 0x9
/-- yaml_private.h:320-323 `IS_BLANK` -/
def isBlank (c : Nat) : Bool := isSpace c || isTab c
/-- yaml_private.h:329-341 `IS_BREAK` -/
def isBreak (c : Nat) : Bool := c == 0xD || c == 0xA || c == 0x85 || c == 0x2028 || c == 0x2029
/-- yaml_private.h:352-355 `IS_BREAKZ` -/
def isBreakz (c : Nat) : Bool := isBreak c || isZ c
/-- yaml_private.h:370-373 `IS_BLANKZ` -/
def isBlankz (c : Nat) : Bool := isBlank c || isBreakz c

/-! ### Elementary operations -/

/-- Programs with the current mark (`parser->mark`) as state. -/
abbrev Lex := StateT Mark Prog

/-- scanner.c:486-489 `CACHE(parser, n)` with the usual `if (!CACHE(...)) goto error`. -/
def cacheC (n : Nat) : Lex Unit := fun m => .cache n (.ret ((), m))

/-- The character at offset `j`. -/
def peekC (j : Nat) : Lex Nat := fun m => .look j fun c => .ret (c, m)

/-- scanner.c:495-499 `SKIP` -/
def skipC : Lex Unit := fun m => .skip (.ret ((), { m with index := m.index + 1, column := m.column + 1 }))

/-- The part of `SKIP_LINE` and `READ_LINE` that advances over a line break of `n` characters (1 or 2). -/
def passBreak : Nat → Lex Unit
  | 0 => fun m => .ret ((), { m with line := m.line + 1, column := 0 })
  | n + 1 => fun m => .skip (passBreak n { m with index := m.index + 1 })

/-- scanner.c:501-513 `SKIP_LINE` -/
def skipLine : Lex Unit := do
  let c ← peekC 0
  if c == 0xD then
    passBreak (if (← peekC 1) == 0xA then 2 else 1)
  else if isBreak c then passBreak 1
  else pure ()

/-- scanner.c:519-525 `READ`: append the current character and advance. -/
def readC (s : Text) : Lex Text := do
  let c ← peekC 0
  skipC
  pure (s ++ [c])

/-- scanner.c:531-572 `READ_LINE`: append the line break, normalised unless it is LS or PS, and advance. -/
def readLine (s : Text) : Lex Text := do
  let c ← peekC 0
  if c == 0xD then
    passBreak (if (← peekC 1) == 0xA then 2 else 1)
    pure (s ++ [0xA])
  else if c == 0xA || c == 0x85 then
    passBreak 1
    pure (s ++ [0xA])
  else if c == 0x2028 || c == 0x2029 then
    passBreak 1
    pure (s ++ [c])
  else pure s

/-- `yaml_parser_set_scanner_error` (scanner.c:782-793): the problem mark is the current mark. -/
def lexErr {α : Type} (context : Option String) (cmark : Mark) (problem : String) : Lex α :=
  fun m => .fail (.scanner context cmark problem m)

/-- `while (p(parser->buffer)) { SKIP(parser); if (!CACHE(parser, 1)) goto error; }` -/
def skipWhile (p : Nat → Bool) : Nat → Lex Unit
  | 0 => fun _ => .fail .fuel
  | n + 1 => do
    if p (← peekC 0) then
      skipC
      cacheC 1
      skipWhile p n
    else pure ()

/-- `while (p(parser->buffer)) { READ(parser, s); if (!CACHE(parser, 1)) goto error; }` -/
def readWhile (p : Nat → Bool) : Nat → Text → Lex Text
  | 0, _ => fun _ => .fail .fuel
  | n + 1, s => do
    if p (← peekC 0) then
      let s ← readC s
      cacheC 1
      readWhile p n s
    else pure s

/-- `CHECK_AT(buffer, c1, j) && CHECK_AT(buffer, c2, j+1) && ...` -/
def checkSeq : Nat → List Nat → Lex Bool
  | _, [] => pure true
  | j, c :: cs => do
    if (← peekC j) == c then checkSeq (j + 1) cs else pure false

/-- `#` and everything up to the end of the line (scanner.c:1960-1965, 2066-2071, 2823-2828). -/
def skipComment (n : Nat) : Lex Unit := do
  if (← peekC 0) == c! '#' then skipWhile (fun c => !isBreakz c) n else pure ()

/-- scanner.c:903-922: `---` or `...` (three times `c`) at the beginning of a line, followed by a blank, a line break or
the end. -/
def docMark (c : Nat) : Lex Bool := do
  if (← get).column = 0 then
    if ← checkSeq 0 [c, c, c] then return isBlankz (← peekC 3) else return false
  else return false

/-- scanner.c:3055-3063, 3430-3438: a document indicator at the beginning of a line. -/
def docIndicator : Lex Bool := do
  if ← docMark (c! '-') then return true else docMark (c! '.')

/-- scanner.c:1929-1932: a byte order mark at the beginning of a line. -/
def skipBom : Lex Unit := do
  if (← get).column = 0 then
    if isBom (← peekC 0) then skipC else pure ()
  else pure ()

/-! ### scanner.c:1919-1985 `yaml_parser_scan_to_next_token` -/

/-- `flow` is `flow_level > 0`; the result is the new `simple_key_allowed`. -/
def scanToNext (flow : Bool) (f : Nat) : Nat → Bool → Lex Bool
  | 0, _ => fun _ => .fail .fuel
  | n + 1, allowed => do
    cacheC 1
    skipBom
    cacheC 1
    skipWhile (fun c => isSpace c || ((flow || !allowed) && isTab c)) f
    skipComment f
    if isBreak (← peekC 0) then
      cacheC 2
      skipLine
      scanToNext flow f n (if flow then allowed else true)
    else pure allowed

/-! ### Directives -/

/-- scanner.c:2111-2152 `yaml_parser_scan_directive_name` -/
def scanDirectiveName (f : Nat) (start : Mark) : Lex Text := do
  cacheC 1
  let name ← readWhile isAlpha f []
  if name.isEmpty then
    lexErr (some "while scanning a directive") start "could not find expected directive name"
  else if isBlankz (← peekC 0) then pure name
  else lexErr (some "while scanning a directive") start "found unexpected non-alphabetical character"

/-- scanner.c:2196-2243 `yaml_parser_scan_version_directive_number`; `len` is `length`. -/
def scanVersionNumber (start : Mark) : Nat → Nat → Nat → Lex Nat
  | 0, _, _ => fun _ => .fail .fuel
  | n + 1, value, len => do
    let c ← peekC 0
    if isDigit c then
      if len + 1 > 9 then
        lexErr (some "while scanning a %YAML directive") start "found extremely long version number"
      else
        skipC
        cacheC 1
        scanVersionNumber start n (value * 10 + asDigit c) (len + 1)
    else if len = 0 then
      lexErr (some "while scanning a %YAML directive") start "did not find expected version number"
    else pure value

/-- scanner.c:2162-2194 `yaml_parser_scan_version_directive_value` -/
def scanVersionValue (f : Nat) (start : Mark) : Lex Version := do
  cacheC 1
  skipWhile isBlank f
  cacheC 1
  let major ← scanVersionNumber start f 0 0
  if (← peekC 0) == c! '.' then
    skipC
    cacheC 1
    let minor ← scanVersionNumber start f 0 0
    pure { major := major, minor := minor }
  else lexErr (some "while scanning a %YAML directive") start "did not find expected digit or '.' character"

/-- scanner.c:2503-2564 `yaml_parser_scan_tag_handle` -/
def scanTagHandle (f : Nat) (directive : Bool) (start : Mark) : Lex Text := do
  cacheC 1
  if (← peekC 0) == c! '!' then
    let s ← readC []
    cacheC 1
    let s ← readWhile isAlpha f s
    if (← peekC 0) == c! '!' then readC s
    else if directive && !(s == [c! '!']) then
      lexErr (some "while parsing a tag directive") start "did not find expected '!'"
    else pure s
  else
    lexErr (some (if directive then "while scanning a tag directive" else "while scanning a tag")) start
      "did not find expected '!'"

/-- The character denoted by the octets of a complete URI escape, which the code copies verbatim into the tag. These may also
encode a surrogate or a number from U+110000 to U+1FFFFF. Overlong forms are represented by a larger number, which determines
the octets. -/
def octetsChar : List Nat → Nat
  | [a] => a
  | [a, b] =>
    let v := a % 0x20 * 0x40 + b % 0x40
    if 0x80 ≤ v then v else 0x200000 + (a * 0x100 + b)
  | [a, b, c] =>
    let v := (a % 0x10 * 0x40 + b % 0x40) * 0x40 + c % 0x40
    if 0x800 ≤ v then v else 0x200000 + ((a * 0x100 + b) * 0x100 + c)
  | [a, b, c, d] =>
    let v := ((a % 8 * 0x40 + b % 0x40) * 0x40 + c % 0x40) * 0x40 + d % 0x40
    if 0x10000 ≤ v then v else 0x200000 + (((a * 0x100 + b) * 0x100 + c) * 0x100 + d)
  | _ => 0

/-- Number of octets announced by a leading octet (scanner.c:2699-2702). -/
def octetWidth (o : Nat) : Nat :=
  if o < 0x80 then 1 else if 0xC0 ≤ o ∧ o < 0xE0 then 2 else if 0xE0 ≤ o ∧ o < 0xF0 then 3
  else if 0xF0 ≤ o ∧ o < 0xF8 then 4 else 0

/-- Context of an error in a tag URI. -/
def uriContext (directive : Bool) : Option String :=
  some (if directive then "while parsing a %TAG directive" else "while parsing a tag")

/-- scanner.c:2682-2696: one escaped octet. -/
def scanOctet (directive : Bool) (start : Mark) : Lex Nat := do
  cacheC 3
  if (← peekC 0) == c! '%' then
    let a ← peekC 1
    if isHex a then
      let b ← peekC 2
      if isHex b then return asHex a * 16 + asHex b
      else lexErr (uriContext directive) start "did not find URI escaped octet"
    else lexErr (uriContext directive) start "did not find URI escaped octet"
  else lexErr (uriContext directive) start "did not find URI escaped octet"

/-- scanner.c:2680-2730: the trailing octets; `w` of them remain. -/
def scanTrailing (directive : Bool) (start : Mark) : Nat → List Nat → Lex (List Nat)
  | 0, os => pure os
  | w + 1, os => do
    let o ← scanOctet directive start
    if 0x80 ≤ o ∧ o < 0xC0 then
      skipC; skipC; skipC
      scanTrailing directive start w (os ++ [o])
    else lexErr (uriContext directive) start "found an incorrect trailing UTF-8 octet"

/-- scanner.c:2671-2731 `yaml_parser_scan_uri_escapes` -/
def scanUriEscapes (directive : Bool) (start : Mark) : Lex Nat := do
  let o ← scanOctet directive start
  if octetWidth o = 0 then lexErr (uriContext directive) start "found an incorrect leading UTF-8 octet"
  else
    skipC; skipC; skipC
    return octetsChar (← scanTrailing directive start (octetWidth o - 1) [o])

/-- scanner.c:2613-2630: the characters that may appear in a tag URI. -/
def isUri (uriChar : Bool) (c : Nat) : Bool :=
  isAlpha c || c == c! ';' || c == c! '/' || c == c! '?' || c == c! ':' || c == c! '@' || c == c! '&' || c == c! '='
    || c == c! '+' || c == c! '$' || c == c! '.' || c == c! '%' || c == c! '!' || c == c! '~' || c == c! '*'
    || c == c! '\'' || c == c! '(' || c == c! ')' || (uriChar && (c == c! ',' || c == c! '[' || c == c! ']'))

/-- scanner.c:2613-2645: the loop of `yaml_parser_scan_tag_uri`. -/
def scanUriLoop (uriChar directive : Bool) (start : Mark) : Nat → Text → Lex Text
  | 0, _ => fun _ => .fail .fuel
  | n + 1, s => do
    let c ← peekC 0
    if isUri uriChar c then
      if c == c! '%' then
        let u ← scanUriEscapes directive start
        cacheC 1
        scanUriLoop uriChar directive start n (s ++ [u])
      else
        let s ← readC s
        cacheC 1
        scanUriLoop uriChar directive start n s
    else pure s

/-- What remains of a text in a NUL-terminated string. -/
def cstr (s : Text) : Text := s.takeWhile (· != 0)

/-- scanner.c:2570-2665 `yaml_parser_scan_tag_uri`. `head` is the text scanned as a handle (`[]` for `NULL`); its leading
`!` is not copied but counts as length. The length needs only be tested for 0. -/
def scanTagUri (f : Nat) (uriChar directive : Bool) (head : Text) (start : Mark) : Lex Text := do
  cacheC 1
  let s ← scanUriLoop uriChar directive start f head.tail
  if head.isEmpty && s.isEmpty then lexErr (uriContext directive) start "did not find expected tag URI"
  else pure (cstr s)

/-- scanner.c:2256-2314 `yaml_parser_scan_tag_directive_value` -/
def scanTagDirValue (f : Nat) (start : Mark) : Lex TagDir := do
  cacheC 1
  skipWhile isBlank f
  let handle ← scanTagHandle f true start
  cacheC 1
  if isBlank (← peekC 0) then
    skipWhile isBlank f
    let pfx ← scanTagUri f true true [] start
    cacheC 1
    if isBlankz (← peekC 0) then pure { handle := handle, pfx := pfx }
    else lexErr (some "while scanning a %TAG directive") start "did not find expected whitespace or line break"
  else lexErr (some "while scanning a %TAG directive") start "did not find expected whitespace"

/-- scanner.c:2058-2088, 2818-2843: blanks, a comment and the line break, or an error. -/
def finishLine (f : Nat) (context : String) (start : Mark) : Lex Unit := do
  cacheC 1
  skipWhile isBlank f
  skipComment f
  let c ← peekC 0
  if isBreakz c then
    if isBreak c then
      cacheC 2
      skipLine
    else pure ()
  else lexErr (some context) start "did not find expected comment or line break"

/-- scanner.c:1995-2099 `yaml_parser_scan_directive` -/
def scanDirective (f : Nat) : Lex Token := do
  let start ← get
  skipC
  let name ← scanDirectiveName f start
  if name == lit ['Y', 'A', 'M', 'L'] then
    let v ← scanVersionValue f start
    let stop ← get
    finishLine f "while scanning a directive" start
    pure { data := .versionDirective v, start := start, stop := stop }
  else if name == lit ['T', 'A', 'G'] then
    let d ← scanTagDirValue f start
    let stop ← get
    finishLine f "while scanning a directive" start
    pure { data := .tagDirective d, start := start, stop := stop }
  else lexErr (some "while scanning a directive") start "found unknown directive name"

/-! ### Anchors and tags -/

/-- scanner.c:2347-2358: what may follow an anchor. -/
def endsAnchor (c : Nat) : Bool :=
  isBlankz c || c == c! '?' || c == c! ':' || c == c! ',' || c == c! ']' || c == c! '}' || c == c! '%' || c == c! '@'
    || c == c! '`'

/-- scanner.c:2320-2380 `yaml_parser_scan_anchor` -/
def scanAnchor (f : Nat) (anchor : Bool) : Lex Token := do
  let start ← get
  skipC
  cacheC 1
  let s ← readWhile isAlpha f []
  let stop ← get
  if !s.isEmpty && endsAnchor (← peekC 0) then
    pure { data := if anchor then .anchor s else .alias s, start := start, stop := stop }
  else
    lexErr (some (if anchor then "while scanning an anchor" else "while scanning an alias")) start
      "did not find expected alphabetic or numeric character"

/-- scanner.c:2386-2497: handle and suffix. -/
def scanTagBody (f : Nat) (start : Mark) : Lex (Text × Text) := do
  cacheC 2
  if (← peekC 1) == c! '<' then
    skipC
    skipC
    let suffix ← scanTagUri f true false [] start
    if (← peekC 0) == c! '>' then
      skipC
      pure ([], suffix)
    else lexErr (some "while scanning a tag") start "did not find the expected '>'"
  else
    let handle ← scanTagHandle f false start
    if handle.head? == some (c! '!') && handle.length != 1 && handle.getLast? == some (c! '!') then
      let suffix ← scanTagUri f false false [] start
      pure (handle, suffix)
    else
      let suffix ← scanTagUri f false false handle start
      if suffix.isEmpty then pure ([], [c! '!']) else pure ([c! '!'], suffix)

/-- scanner.c:2386-2497 `yaml_parser_scan_tag` -/
def scanTag (f : Nat) (flow : Bool) : Lex Token := do
  let start ← get
  let (handle, suffix) ← scanTagBody f start
  cacheC 1
  let c ← peekC 0
  if isBlankz c || (flow && c == c! ',') then
    let stop ← get
    pure { data := .tag handle suffix, start := start, stop := stop }
  else lexErr (some "while scanning a tag") start "did not find expected whitespace or line break"

/-! ### Block scalars -/

/-- scanner.c:2982-2986: indentation spaces. -/
def skipIndent (indent : Int) : Nat → Lex Unit
  | 0 => fun _ => .fail .fuel
  | n + 1 => do
    if indent = 0 ∨ (← get).column < indent then
      if isSpace (← peekC 0) then
        skipC
        cacheC 1
        skipIndent indent n
      else pure ()
    else pure ()

/-- scanner.c:2976-3010: the loop of `yaml_parser_scan_block_scalar_breaks`; results `(max_indent, breaks, end_mark)`. -/
def blockBreaksLoop (f : Nat) (start : Mark) (indent : Int) : Nat → Nat → Text → Mark → Lex (Nat × Text × Mark)
  | 0, _, _, _ => fun _ => .fail .fuel
  | n + 1, maxIndent, breaks, stop => do
    cacheC 1
    skipIndent indent f
    let col := (← get).column
    let maxIndent := if col > maxIndent then col else maxIndent
    let c ← peekC 0
    if (indent = 0 ∨ col < indent) ∧ isTab c then
      lexErr (some "while scanning a block scalar") start
        "found a tab character where an indentation space is expected"
    else if isBreak c then
      cacheC 2
      let breaks ← readLine breaks
      let stop ← get
      blockBreaksLoop f start indent n maxIndent breaks stop
    else pure (maxIndent, breaks, stop)

/-- scanner.c:3013-3019: the indentation found. -/
def foundIndent (parserIndent : Int) (maxIndent : Nat) : Int :=
  let i : Int := if (maxIndent : Int) < parserIndent + 1 then parserIndent + 1 else maxIndent
  if i < 1 then 1 else i

/-- scanner.c:2962-3022 `yaml_parser_scan_block_scalar_breaks`; results `(indent, breaks, end_mark)`. -/
def blockBreaks (f : Nat) (start : Mark) (parserIndent indent : Int) (breaks : Text) : Lex (Int × Text × Mark) := do
  let (maxIndent, breaks, stop) ← blockBreaksLoop f start indent f 0 breaks (← get)
  pure (if indent = 0 then foundIndent parserIndent maxIndent else indent, breaks, stop)

/-- Chomping indicator (scanner.c:2748 `chomping`): -1, 0, +1. -/
inductive Chomp | strip | clip | keep
  deriving DecidableEq, Repr

/-- scanner.c:2777-2784, 2809-2813: a chomping indicator. -/
def chompOf (c : Nat) : Option Chomp :=
  if c == c! '+' then some .keep else if c == c! '-' then some .strip else none

/-- scanner.c:2786-2800, 2803-2808: an indentation indicator; 0 if there is none. -/
def scanIncrement (start : Mark) : Lex Nat := do
  let c ← peekC 0
  if isDigit c then
    if c == c! '0' then
      lexErr (some "while scanning a block scalar") start "found an indentation indicator equal to 0"
    else
      skipC
      pure (asDigit c)
  else pure 0

/-- scanner.c:2770-2815: the indicators after `|` or `>`. -/
def scanBlockHeader (start : Mark) : Lex (Chomp × Nat) := do
  cacheC 1
  match chompOf (← peekC 0) with
  | some chomp =>
    skipC
    cacheC 1
    let increment ← scanIncrement start
    pure (chomp, increment)
  | none =>
    let increment ← scanIncrement start
    if increment = 0 then pure (.clip, 0)
    else
      cacheC 1
      match chompOf (← peekC 0) with
      | some chomp =>
        skipC
        pure (chomp, increment)
      | none => pure (.clip, increment)

/-- scanner.c:2868-2890: what joins the previous line to the next one. -/
def blockJoin (literal leadingBlank trailingBlank : Bool) (s leadingBreak trailingBreaks : Text) : Text :=
  if !literal && leadingBreak.head? == some 0xA && !leadingBlank && !trailingBlank then
    (if trailingBreaks.isEmpty then s ++ [0x20] else s) ++ trailingBreaks
  else s ++ leadingBreak ++ trailingBreaks

/-- scanner.c:2857-2915: the content lines; results `(string, leading_break, trailing_breaks, end_mark)`. -/
def blockLines (f : Nat) (start : Mark) (parserIndent : Int) (literal : Bool) (indent : Int) :
    Nat → Bool → Text → Text → Text → Mark → Lex (Text × Text × Text × Mark)
  | 0, _, _, _, _, _ => fun _ => .fail .fuel
  | n + 1, leadingBlank, s, leadingBreak, trailingBreaks, stop => do
    if (← get).column = indent then
      let c ← peekC 0
      if isZ c then pure (s, leadingBreak, trailingBreaks, stop)
      else
        let blank := isBlank c
        let s := blockJoin literal leadingBlank blank s leadingBreak trailingBreaks
        let s ← readWhile (fun c => !isBreakz c) f s
        cacheC 2
        let leadingBreak ← readLine []
        let (indent', trailingBreaks, stop) ← blockBreaks f start parserIndent indent []
        blockLines f start parserIndent literal indent' n blank s leadingBreak trailingBreaks stop
    else pure (s, leadingBreak, trailingBreaks, stop)

/-- scanner.c:2917-2925: chomping. -/
def chompTail (chomp : Chomp) (s leadingBreak trailingBreaks : Text) : Text :=
  match chomp with
  | .strip => s
  | .clip => s ++ leadingBreak
  | .keep => s ++ leadingBreak ++ trailingBreaks

/-- scanner.c:2740-2954 `yaml_parser_scan_block_scalar` -/
def scanBlockScalar (f : Nat) (parserIndent : Int) (literal : Bool) : Lex Token := do
  let start ← get
  skipC
  let (chomp, increment) ← scanBlockHeader start
  finishLine f "while scanning a block scalar" start
  let indent : Int :=
    if increment = 0 then 0 else if parserIndent ≥ 0 then parserIndent + increment else increment
  let (indent, trailingBreaks, stop) ← blockBreaks f start parserIndent indent []
  cacheC 1
  let (s, leadingBreak, trailingBreaks, stop) ←
    blockLines f start parserIndent literal indent f false [] [] trailingBreaks stop
  pure { data := .scalar (chompTail chomp s leadingBreak trailingBreaks) (if literal then .literal else .folded),
         start := start, stop := stop }

/-! ### Quoted scalars -/

/-- scanner.c:3128-3210: the escape characters with a fixed meaning. -/
def simpleEscape (c : Nat) : Option Nat :=
  if c == c! '0' then some 0
  else if c == c! 'a' then some 7
  else if c == c! 'b' then some 8
  else if c == c! 't' || c == 9 then some 9
  else if c == c! 'n' then some 0xA
  else if c == c! 'v' then some 0xB
  else if c == c! 'f' then some 0xC
  else if c == c! 'r' then some 0xD
  else if c == c! 'e' then some 0x1B
  else if c == c! ' ' then some 0x20
  else if c == c! '"' then some 0x22
  else if c == c! '/' then some 0x2F
  else if c == c! '\\' then some 0x5C
  else if c == c! 'N' then some 0x85
  else if c == c! '_' then some 0xA0
  else if c == c! 'L' then some 0x2028
  else if c == c! 'P' then some 0x2029
  else none

/-- scanner.c:3201-3212: the length of a numeric escape. -/
def codeLength (c : Nat) : Option Nat :=
  if c == c! 'x' then some 2 else if c == c! 'u' then some 4 else if c == c! 'U' then some 8 else none

/-- scanner.c:3232-3240: the value of `n` hexadecimal digits starting at offset `k`. -/
def hexValue (start : Mark) : Nat → Nat → Nat → Lex Nat
  | 0, _, value => pure value
  | n + 1, k, value => do
    let c ← peekC k
    if isHex c then hexValue start n (k + 1) (value * 16 + asHex c)
    else lexErr (some "while parsing a quoted scalar") start "did not find expected hexdecimal number"

/-- `n` times `SKIP` -/
def skipN : Nat → Lex Unit
  | 0 => pure ()
  | n + 1 => do skipC; skipN n

/-- scanner.c:3118-3280: an escape sequence other than an escaped line break. -/
def scanEscape (start : Mark) (s : Text) : Lex Text := do
  let c ← peekC 1
  match simpleEscape c with
  | some v =>
    skipC
    skipC
    pure (s ++ [v])
  | none =>
    match codeLength c with
    | none => lexErr (some "while parsing a quoted scalar") start "found unknown escape character"
    | some len =>
      skipC
      skipC
      cacheC len
      let v ← hexValue start len 0 0
      if (0xD800 ≤ v ∧ v ≤ 0xDFFF) ∨ v > 0x10FFFF then
        lexErr (some "while parsing a quoted scalar") start "found invalid Unicode character escape code"
      else
        skipN len
        pure (s ++ [v])

/-- scanner.c:3080-3290: the non-blank characters; the flag is `leading_blanks`. -/
def flowChars (start : Mark) (single : Bool) : Nat → Text → Lex (Text × Bool)
  | 0, _ => fun _ => .fail .fuel
  | n + 1, s => do
    let c ← peekC 0
    if isBlankz c then pure (s, false)
    else if single then
      if c == c! '\'' then
        if (← peekC 1) == c! '\'' then
          skipC
          skipC
          cacheC 2
          flowChars start single n (s ++ [c! '\''])
        else pure (s, false)
      else
        let s ← readC s
        cacheC 2
        flowChars start single n s
    else if c == c! '"' then pure (s, false)
    else if c == c! '\\' then
      if isBreak (← peekC 1) then
        cacheC 3
        skipC
        skipLine
        pure (s, true)
      else
        let s ← scanEscape start s
        cacheC 2
        flowChars start single n s
    else
      let s ← readC s
      cacheC 2
      flowChars start single n s

/-- The blanks and line breaks between two runs of non-blank characters: `leading_blanks`, `whitespaces`,
`leading_break`, `trailing_breaks`. -/
structure Gap where
  blanks : Bool := false
  white : Text := []
  leading : Text := []
  trailing : Text := []
  deriving DecidableEq, Repr

/-- scanner.c:3300-3337: the blanks of a quoted scalar. -/
def flowBlanks : Nat → Gap → Lex Gap
  | 0, _ => fun _ => .fail .fuel
  | n + 1, g => do
    let c ← peekC 0
    if isBlank c then
      if g.blanks then
        skipC
        cacheC 1
        flowBlanks n g
      else
        let w ← readC g.white
        cacheC 1
        flowBlanks n { g with white := w }
    else if isBreak c then
      cacheC 2
      if g.blanks then
        let t ← readLine g.trailing
        cacheC 1
        flowBlanks n { g with trailing := t }
      else
        let l ← readLine g.leading
        cacheC 1
        flowBlanks n { g with white := [], leading := l, blanks := true }
    else pure g

/-- scanner.c:3340-3367, 3489-3515: fold or copy the gap. -/
def joinGap (s : Text) (g : Gap) : Text :=
  if g.blanks then
    if g.leading.head? == some 0xA then
      if g.trailing.isEmpty then s ++ [0x20] else s ++ g.trailing
    else s ++ g.leading ++ g.trailing
  else s ++ g.white

/-- scanner.c:3050-3370: the content of a quoted scalar up to the closing quote. -/
def flowBody (f : Nat) (start : Mark) (single : Bool) : Nat → Text → Lex Text
  | 0, _ => fun _ => .fail .fuel
  | n + 1, s => do
    cacheC 4
    if ← docIndicator then
      lexErr (some "while scanning a quoted scalar") start "found unexpected document indicator"
    else if isZ (← peekC 0) then
      lexErr (some "while scanning a quoted scalar") start "found unexpected end of stream"
    else
      cacheC 2
      let (s, blanks) ← flowChars start single f s
      cacheC 1
      if (← peekC 0) == (if single then c! '\'' else c! '"') then pure s
      else
        let g ← flowBlanks f { blanks := blanks }
        flowBody f start single n (joinGap s g)

/-- scanner.c:3024-3391 `yaml_parser_scan_flow_scalar` -/
def scanFlowScalar (f : Nat) (single : Bool) : Lex Token := do
  let start ← get
  skipC
  let s ← flowBody f start single f []
  skipC
  let stop ← get
  pure { data := .scalar s (if single then .single else .double), start := start, stop := stop }

/-! ### Plain scalars -/

/-- scanner.c:3454-3459, 3469-3473: flow indicators. -/
def isFlowIndicator (c : Nat) : Bool :=
  c == c! ',' || c == c! '[' || c == c! ']' || c == c! '{' || c == c! '}'

/-- scanner.c:3443-3530: the non-blank characters of a plain scalar. `g` is what came before them; the results are the
text, the gap that remains and the end mark. -/
def plainChars (start : Mark) (flow : Bool) : Nat → Text → Gap → Mark → Lex (Text × Gap × Mark)
  | 0, _, _, _ => fun _ => .fail .fuel
  | n + 1, s, g, stop => do
    let c ← peekC 0
    if isBlankz c then pure (s, g, stop)
    else if c == c! ':' then
      let d ← peekC 1
      if flow && (isFlowIndicator d || d == c! '?') then
        lexErr (some "while scanning a plain scalar") start "found unexpected ':'"
      else if isBlankz d then pure (s, g, stop)
      else
        let s ← readC (joinGap s g)
        let stop ← get
        cacheC 2
        plainChars start flow n s {} stop
    else if flow && isFlowIndicator c then pure (s, g, stop)
    else
      let s ← readC (joinGap s g)
      let stop ← get
      cacheC 2
      plainChars start flow n s {} stop

/-- scanner.c:3540-3585: the blanks of a plain scalar. -/
def plainBlanks (start : Mark) (indent : Int) : Nat → Gap → Lex Gap
  | 0, _ => fun _ => .fail .fuel
  | n + 1, g => do
    let c ← peekC 0
    if isBlank c then
      if g.blanks then
        if (← get).column < indent ∧ isTab c then
          lexErr (some "while scanning a plain scalar") start "found a tab character that violates indentation"
        else
          skipC
          cacheC 1
          plainBlanks start indent n g
      else
        let w ← readC g.white
        cacheC 1
        plainBlanks start indent n { g with white := w }
    else if isBreak c then
      cacheC 2
      if g.blanks then
        let t ← readLine g.trailing
        cacheC 1
        plainBlanks start indent n { g with trailing := t }
      else
        let l ← readLine g.leading
        cacheC 1
        plainBlanks start indent n { g with white := [], leading := l, blanks := true }
    else pure g

/-- scanner.c:3423-3590: the content of a plain scalar; results are the text, the remaining gap and the end mark. -/
def plainBody (f : Nat) (start : Mark) (flow : Bool) (indent : Int) : Nat → Text → Gap → Mark → Lex (Text × Gap × Mark)
  | 0, _, _, _ => fun _ => .fail .fuel
  | n + 1, s, g, stop => do
    cacheC 4
    if ← docIndicator then pure (s, g, stop)
    else if (← peekC 0) == c! '#' then pure (s, g, stop)
    else
      let (s, g, stop) ← plainChars start flow f s g stop
      let c ← peekC 0
      if isBlank c || isBreak c then
        cacheC 1
        let g ← plainBlanks start indent f g
        if !flow && decide ((← get).column < indent) then pure (s, g, stop)
        else plainBody f start flow indent n s g stop
      else pure (s, g, stop)

/-- scanner.c:3397-3598 `yaml_parser_scan_plain_scalar`; the flag says whether a simple key is allowed afterwards. -/
def scanPlainScalar (f : Nat) (parserIndent : Int) (flow : Bool) : Lex (Token × Bool) := do
  let start ← get
  let (s, g, stop) ← plainBody f start flow (parserIndent + 1) f [] {} start
  pure ({ data := .scalar s .plain, start := start, stop := stop }, g.blanks)

end LibYaml
