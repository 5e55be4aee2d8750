import Verif.Model.Lexer
import Verif.Model.Emitter

/-!
# Model of the character macros on bytes (`src/yaml_private.h:174-406`)

The scanner and the emitter test characters by comparing bytes behind a pointer. The other models test decoded
characters. Here the macros are written down as they are: on bytes, with an offset in bytes, with the short-circuit
evaluation of `&&` and `||`, and with a read outside of the buffer as undefined behaviour. `Props/Chars.lean` shows that
both ways of testing agree.
-/

namespace LibYaml

/-- `string.pointer[k]`; outside of the buffer it is undefined. -/
def byteAt (s : List UInt8) (k : Nat) : Except Fail Nat :=
  match s[k]? with
  | some b => .ok b.toNat
  | none => .error .ub

/-- `a || b` -/
def orElse (a b : Except Fail Bool) : Except Fail Bool :=
  match a with
  | .error e => .error e
  | .ok true => .ok true
  | .ok false => b

/-- `a && b` -/
def andAlso (a b : Except Fail Bool) : Except Fail Bool :=
  match a with
  | .error e => .error e
  | .ok true => b
  | .ok false => .ok false

/-- `!a` -/
def notB (a : Except Fail Bool) : Except Fail Bool :=
  match a with
  | .error e => .error e
  | .ok b => .ok !b

/-- A comparison of the byte at `k`. -/
def testAt (s : List UInt8) (k : Nat) (p : Nat → Bool) : Except Fail Bool :=
  match byteAt s k with
  | .error e => .error e
  | .ok b => .ok (p b)

/-- yaml_private.h:174-175 `CHECK_AT` -/
def checkAt (s : List UInt8) (octet k : Nat) : Except Fail Bool := testAt s k (· == octet)

/-- `pointer[k] >= lo && pointer[k] <= hi` -/
def rangeAt (s : List UInt8) (k lo hi : Nat) : Except Fail Bool :=
  andAlso (testAt s k fun b => decide (b ≥ lo)) (testAt s k fun b => decide (b ≤ hi))

/-- yaml_private.h:188-198 `IS_ALPHA_AT` -/
def alphaAt (s : List UInt8) (k : Nat) : Except Fail Bool :=
  orElse (rangeAt s k (c! '0') (c! '9')) <| orElse (rangeAt s k (c! 'A') (c! 'Z')) <|
    orElse (rangeAt s k (c! 'a') (c! 'z')) <| orElse (checkAt s (c! '_') k) (checkAt s (c! '-') k)

/-- yaml_private.h:206-208 `IS_DIGIT_AT` -/
def digitAt (s : List UInt8) (k : Nat) : Except Fail Bool := rangeAt s k (c! '0') (c! '9')

/-- yaml_private.h:216-217 `AS_DIGIT_AT`; the difference is an `int`. -/
def asDigitAt (s : List UInt8) (k : Nat) : Except Fail Int :=
  match byteAt s k with
  | .error e => .error e
  | .ok b => .ok ((b : Int) - c! '0')

/-- yaml_private.h:225-231 `IS_HEX_AT` -/
def hexAt (s : List UInt8) (k : Nat) : Except Fail Bool :=
  orElse (rangeAt s k (c! '0') (c! '9')) <| orElse (rangeAt s k (c! 'A') (c! 'F')) (rangeAt s k (c! 'a') (c! 'f'))

/-- yaml_private.h:239-246 `AS_HEX_AT` -/
def asHexAt (s : List UInt8) (k : Nat) : Except Fail Int :=
  match byteAt s k with
  | .error e => .error e
  | .ok b =>
    .ok (if b ≥ c! 'A' ∧ b ≤ c! 'F' then (b : Int) - c! 'A' + 10
      else if b ≥ c! 'a' ∧ b ≤ c! 'f' then (b : Int) - c! 'a' + 10 else (b : Int) - c! '0')

/-- yaml_private.h:254-255 `IS_ASCII_AT` -/
def asciiAt (s : List UInt8) (k : Nat) : Except Fail Bool := testAt s k fun b => decide (b ≤ 0x7F)

/-- yaml_private.h:263-281 `IS_PRINTABLE_AT` -/
def printableAt (s : List UInt8) (k : Nat) : Except Fail Bool :=
  orElse (checkAt s 0x0A k) <|
  orElse (andAlso (testAt s k fun b => decide (b ≥ 0x20)) (testAt s k fun b => decide (b ≤ 0x7E))) <|
  orElse (andAlso (checkAt s 0xC2 k) (testAt s (k + 1) fun b => decide (b ≥ 0xA0))) <|
  orElse (andAlso (testAt s k fun b => decide (b > 0xC2)) (testAt s k fun b => decide (b < 0xED))) <|
  orElse (andAlso (checkAt s 0xED k) (testAt s (k + 1) fun b => decide (b < 0xA0))) <|
  orElse (checkAt s 0xEE k) <|
  andAlso (checkAt s 0xEF k) <|
  andAlso (notB (andAlso (checkAt s 0xBB (k + 1)) (checkAt s 0xBF (k + 2)))) <|
    notB (andAlso (checkAt s 0xBF (k + 1)) (orElse (checkAt s 0xBE (k + 2)) (checkAt s 0xBF (k + 2))))

/-- yaml_private.h:289 `IS_Z_AT` -/
def zAt (s : List UInt8) (k : Nat) : Except Fail Bool := checkAt s 0 k

/-- yaml_private.h:297-300 `IS_BOM_AT` -/
def bomAt (s : List UInt8) (k : Nat) : Except Fail Bool :=
  andAlso (checkAt s 0xEF k) <| andAlso (checkAt s 0xBB (k + 1)) (checkAt s 0xBF (k + 2))

/-- yaml_private.h:308 `IS_SPACE_AT` -/
def spaceAt (s : List UInt8) (k : Nat) : Except Fail Bool := checkAt s (c! ' ') k

/-- yaml_private.h:316 `IS_TAB_AT` -/
def tabAt (s : List UInt8) (k : Nat) : Except Fail Bool := checkAt s 9 k

/-- yaml_private.h:324-325 `IS_BLANK_AT` -/
def blankAt (s : List UInt8) (k : Nat) : Except Fail Bool := orElse (spaceAt s k) (tabAt s k)

/-- yaml_private.h:333-343 `IS_BREAK_AT` -/
def breakAt (s : List UInt8) (k : Nat) : Except Fail Bool :=
  orElse (checkAt s 0xD k) <| orElse (checkAt s 0xA k) <|
  orElse (andAlso (checkAt s 0xC2 k) (checkAt s 0x85 (k + 1))) <|
  orElse (andAlso (checkAt s 0xE2 k) (andAlso (checkAt s 0x80 (k + 1)) (checkAt s 0xA8 (k + 2)))) <|
  andAlso (checkAt s 0xE2 k) (andAlso (checkAt s 0x80 (k + 1)) (checkAt s 0xA9 (k + 2)))

/-- yaml_private.h:347-348 `IS_CRLF_AT` -/
def crlfAt (s : List UInt8) (k : Nat) : Except Fail Bool := andAlso (checkAt s 0xD k) (checkAt s 0xA (k + 1))

/-- yaml_private.h:356-357 `IS_BREAKZ_AT` -/
def breakzAt (s : List UInt8) (k : Nat) : Except Fail Bool := orElse (breakAt s k) (zAt s k)

/-- yaml_private.h:365-366 `IS_SPACEZ_AT` -/
def spacezAt (s : List UInt8) (k : Nat) : Except Fail Bool := orElse (spaceAt s k) (breakzAt s k)

/-- yaml_private.h:374-375 `IS_BLANKZ_AT` -/
def blankzAt (s : List UInt8) (k : Nat) : Except Fail Bool := orElse (blankAt s k) (breakzAt s k)

/-- yaml_private.h:383-387 `WIDTH_AT` -/
def widthAt (s : List UInt8) (k : Nat) : Except Fail Nat :=
  match byteAt s k with
  | .error e => .error e
  | .ok b => .ok (width b)

/-- yaml_private.h:401-419 `COPY` from position `k`: the bytes that are copied, one by one. -/
def copyAt (s : List UInt8) (k : Nat) : Except Fail (List UInt8) :=
  match widthAt s k with
  | .error e => .error e
  | .ok w => if k + w ≤ s.length then .ok ((s.drop k).take w) else .error .ub

/-- emitter.c:2076-2089: the value of the character at `k`, bit by bit. -/
def valueLoop (s : List UInt8) (k : Nat) : Nat → Nat → Nat → Except Fail Nat
  | 0, _, value => .ok value
  | n + 1, j, value =>
    match byteAt s (k + j) with
    | .error e => .error e
    | .ok b => valueLoop s k n (j + 1) ((value <<< 6) + (b &&& 0x3F))

/-- emitter.c:2076-2089 -/
def valueAt (s : List UInt8) (k : Nat) : Except Fail Nat :=
  match byteAt s k with
  | .error e => .error e
  | .ok b => valueLoop s k (width b - 1) 1 (leadBits b)

end LibYaml
