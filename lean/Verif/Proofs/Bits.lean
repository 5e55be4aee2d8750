import Verif.Model.Reader

/-! Bit-level facts about octets, by exhaustive kernel evaluation over all 256 values, and shifts/masks as arithmetic. -/

namespace LibYaml

theorem width_eq (n : Nat) (h : n < 256) :
    width n = if n < 128 then 1 else if n < 192 then 0 else if n < 224 then 2 else if n < 240 then 3
      else if n < 248 then 4 else 0 := by
  have key : ∀ n < 256, width n = if n < 128 then 1 else if n < 192 then 0 else if n < 224 then 2
      else if n < 240 then 3 else if n < 248 then 4 else 0 := by decide +kernel
  exact key n h

theorem leadBits_eq (n : Nat) (h : n < 256) :
    leadBits n = if n < 128 then n else if n < 192 then 0 else if n < 224 then n - 192
      else if n < 240 then n - 224 else if n < 248 then n - 240 else 0 := by
  have key : ∀ n < 256, leadBits n = if n < 128 then n else if n < 192 then 0 else if n < 224 then n - 192
      else if n < 240 then n - 224 else if n < 248 then n - 240 else 0 := by decide +kernel
  exact key n h

theorem trail_iff (n : Nat) (h : n < 256) : (n &&& 0xC0 = 0x80) ↔ (128 ≤ n ∧ n < 192) := by
  have key : ∀ n < 256, (n &&& 0xC0 = 0x80) ↔ (128 ≤ n ∧ n < 192) := by decide +kernel
  exact key n h

theorem and3F (n : Nat) : n &&& 0x3F = n % 64 := Nat.and_two_pow_sub_one_eq_mod n 6
theorem and3FF (n : Nat) : n &&& 0x3FF = n % 1024 := Nat.and_two_pow_sub_one_eq_mod n 10
theorem andFF (n : Nat) : n &&& 0xFF = n % 256 := Nat.and_two_pow_sub_one_eq_mod n 8
theorem and0F (n : Nat) : n &&& 0x0F = n % 16 := Nat.and_two_pow_sub_one_eq_mod n 4

theorem toNat_lt (b : UInt8) : b.toNat < 256 := b.toNat_lt

theorem andFC00 (n : Nat) (h : n < 65536) : n &&& 0xFC00 = n / 1024 * 1024 := by
  have e : (0xFC00 : Nat) = 63 <<< 10 := by decide
  apply Nat.eq_of_testBit_eq
  intro i
  have hd : n / 1024 * 1024 = (n >>> 10) <<< 10 := by
    rw [Nat.shiftRight_eq_div_pow, Nat.shiftLeft_eq]
  rw [hd, e, Nat.testBit_and, Nat.testBit_shiftLeft, Nat.testBit_shiftLeft, Nat.testBit_shiftRight]
  by_cases hi : 10 ≤ i
  · have hp : 10 + (i - 10) = i := by omega
    simp only [hi, decide_true, Bool.true_and, hp]
    by_cases h6 : i - 10 < 6
    · have : (63 : Nat).testBit (i - 10) = true := by
        have : ∀ k < 6, (63 : Nat).testBit k = true := by decide
        exact this _ h6
      rw [this, Bool.and_true]
    · have : n.testBit i = false := by
        apply Nat.testBit_lt_two_pow
        exact Nat.lt_of_lt_of_le h (by
          have : (65536 : Nat) = 2 ^ 16 := by decide
          rw [this]; exact Nat.pow_le_pow_right (by decide) (by omega))
      simp [this]
  · simp [hi]

end LibYaml
