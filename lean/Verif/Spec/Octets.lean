import Verif.Spec.Unicode

/-!
# The octets of the strings in memory

A tag may contain octets that encode no number, because `%`-escapes are copied into it: overlong forms such as `%C0%80`. The
models of texts represent these by numbers above all that UTF-8 can encode (see `octetsChar`).
-/

namespace LibYaml.Spec

/-- Two to four octets, the digits of a number. -/
def rawOctets (n : Nat) : List UInt8 :=
  (if 0x1000000 ≤ n then [UInt8.ofNat (n / 0x1000000)] else []) ++ (if 0x10000 ≤ n then [UInt8.ofNat (n / 0x10000 % 0x100)] else []) ++
    [UInt8.ofNat (n / 0x100 % 0x100), UInt8.ofNat (n % 0x100)]

/-- The octets of a character, or of what stands for octets that encode no character. -/
def octets (c : Nat) : List UInt8 := if c < 0x200000 then utf8 c else rawOctets (c - 0x200000)

/-- The octets of a string. -/
def textBytes (t : List Nat) : List UInt8 := t.flatMap octets

/-- A trailing octet. -/
def Trails (b : UInt8) : Prop := 0x80 ≤ b.toNat ∧ b.toNat < 0xC0

instance (b : UInt8) : Decidable (Trails b) := by unfold Trails; infer_instance

/-- The octets have the form of an encoded character, but there is a shorter form. -/
def Overlong : List UInt8 → Prop
  | [a, b] => (a = 0xC0 ∨ a = 0xC1) ∧ Trails b
  | [a, b, c] => a = 0xE0 ∧ Trails b ∧ b.toNat < 0xA0 ∧ Trails c
  | [a, b, c, d] => a = 0xF0 ∧ Trails b ∧ b.toNat < 0x90 ∧ Trails c ∧ Trails d
  | _ => False

instance (bs : List UInt8) : Decidable (Overlong bs) := by unfold Overlong; split <;> infer_instance

/-- A character, or what stands for an overlong form. -/
def Storable (c : Nat) : Prop := c < 0x200000 ∨ c < 0x100200000 ∧ Overlong (octets c)

instance (c : Nat) : Decidable (Storable c) := by unfold Storable; infer_instance

/-- A text that is a C string. -/
def CText (t : List Nat) : Prop := ∀ c ∈ t, c ≠ 0 ∧ Storable c

example : octets 0xE9 = [0xC3, 0xA9] ∧ octets (0x200000 + 0xC080) = [0xC0, 0x80] ∧ octets (0x200000 + 0xE08080) = [0xE0, 0x80, 0x80] := by decide

example : Storable 0xD800 ∧ Storable (0x200000 + 0xC080) ∧ Storable (0x200000 + 0xF08F8080) ∧ ¬ Storable (0x200000 + 0xC280) := by decide

end LibYaml.Spec
