/-!
# Specification: Unicode encodings

Independent of `/repo`: the UTF-8 (RFC 3629) and UTF-16 (RFC 2781) encodings written with plain
division and remainder, and the set of characters YAML 1.1 permits in a stream.
-/

namespace LibYaml.Spec

/-- Unicode scalar values: everything up to U+10FFFF except the surrogates. -/
def IsScalar (c : Nat) : Prop := c < 0xD800 ∨ (0xE000 ≤ c ∧ c ≤ 0x10FFFF)

instance (c : Nat) : Decidable (IsScalar c) := by unfold IsScalar; infer_instance

/-- UTF-8 encoding of one code point (RFC 3629 section 3). -/
def utf8 (c : Nat) : List UInt8 :=
  if c < 0x80 then [UInt8.ofNat c]
  else if c < 0x800 then [UInt8.ofNat (0xC0 + c / 64), UInt8.ofNat (0x80 + c % 64)]
  else if c < 0x10000 then
    [UInt8.ofNat (0xE0 + c / 4096), UInt8.ofNat (0x80 + c / 64 % 64), UInt8.ofNat (0x80 + c % 64)]
  else
    [UInt8.ofNat (0xF0 + c / 262144), UInt8.ofNat (0x80 + c / 4096 % 64),
     UInt8.ofNat (0x80 + c / 64 % 64), UInt8.ofNat (0x80 + c % 64)]

/-- UTF-8 encoding of a text. -/
def utf8s (cs : List Nat) : List UInt8 := cs.flatMap utf8

/-- One 16-bit unit as two bytes, low byte first (`le = true`) or high byte first. -/
def unit16 (le : Bool) (u : Nat) : List UInt8 :=
  if le then [UInt8.ofNat (u % 256), UInt8.ofNat (u / 256)]
  else [UInt8.ofNat (u / 256), UInt8.ofNat (u % 256)]

/-- UTF-16 encoding of one code point (RFC 2781 section 2.1). -/
def utf16 (le : Bool) (c : Nat) : List UInt8 :=
  if c < 0x10000 then unit16 le c
  else unit16 le (0xD800 + (c - 0x10000) / 1024) ++ unit16 le (0xDC00 + (c - 0x10000) % 1024)

/-- UTF-16 encoding of a text. -/
def utf16s (le : Bool) (cs : List Nat) : List UInt8 := cs.flatMap (utf16 le)

/-- Input encodings. -/
inductive Enc | utf8 | utf16le | utf16be
  deriving DecidableEq, Repr

/-- The encoding of one code point in a given encoding. -/
def encode : Enc → Nat → List UInt8
  | .utf8 => utf8
  | .utf16le => utf16 true
  | .utf16be => utf16 false

/-- Encoding of a text. -/
def encodes (e : Enc) (cs : List Nat) : List UInt8 := cs.flatMap (encode e)

/-- What a byte order mark at the beginning says: the encoding, and the bytes after the mark. -/
def detect : List UInt8 → Enc × List UInt8
  | 0xFF :: 0xFE :: r => (.utf16le, r)
  | 0xFE :: 0xFF :: r => (.utf16be, r)
  | 0xEF :: 0xBB :: 0xBF :: r => (.utf8, r)
  | bytes => (.utf8, bytes)

/-- Characters YAML permits in a stream (YAML 1.1 section 5.1, "c-printable", plus DEL-free rule). -/
def Permitted (c : Nat) : Prop :=
  c = 0x09 ∨ c = 0x0A ∨ c = 0x0D ∨ (0x20 ≤ c ∧ c ≤ 0x7E) ∨ c = 0x85 ∨ (0xA0 ≤ c ∧ c ≤ 0xD7FF) ∨
    (0xE000 ≤ c ∧ c ≤ 0xFFFD) ∨ (0x10000 ≤ c ∧ c ≤ 0x10FFFF)

instance (c : Nat) : Decidable (Permitted c) := by unfold Permitted; infer_instance

/-- `bytes` is the encoding of the permitted text `cs`. -/
def Decodes (e : Enc) (bytes : List UInt8) (cs : List Nat) : Prop :=
  bytes = encodes e cs ∧ ∀ c ∈ cs, Permitted c

/-- No permitted character is encoded at the front of `tail`. -/
def Stuck (e : Enc) (tail : List UInt8) : Prop := ∀ c r, Permitted c → tail ≠ encode e c ++ r

/-- `good` is the text of the longest decodable prefix of `bytes`, and `tail` is the rest. -/
structure Split (e : Enc) (bytes : List UInt8) (good : List Nat) (tail : List UInt8) : Prop where
  eq : bytes = encodes e good ++ tail
  perm : ∀ c ∈ good, Permitted c
  stuck : Stuck e tail

/-- The encoding to be used for `bytes` and the bytes to be decoded: a set encoding is taken as it is, otherwise the
byte order mark decides. -/
def chosen (enc : Option Enc) (bytes : List UInt8) : Enc × List UInt8 :=
  match enc with
  | some e => (e, bytes)
  | none => detect bytes

end LibYaml.Spec
