import Verif.Model.Chars
import Verif.Proofs.Decode

/-!
# C54: the character macros classify characters exactly

The macros compare bytes at a byte offset. In a text in UTF-8, at the beginning of a character, they give the answer
that the definition of the class by code points gives, and read no byte that does not belong to the character.
-/

namespace LibYaml

open Spec

/-- At offset `k` of the bytes `s` the encoding of the character `c` begins. -/
def Starts (s : List UInt8) (k c : Nat) : Prop := IsScalar c ∧ ∃ pre rest, s = pre ++ utf8 c ++ rest ∧ pre.length = k

/-- The bytes of a character of each length. -/
inductive Bytes (s : List UInt8) (k c : Nat) : Prop
  | one (h : c < 0x80) (h0 : byteAt s k = .ok c)
  | two (h : 0x80 ≤ c) (h' : c < 0x800) (h0 : byteAt s k = .ok (0xC0 + c / 64)) (h1 : byteAt s (k + 1) = .ok (0x80 + c % 64))
  | three (h : 0x800 ≤ c) (h' : c < 0x10000) (hs : c < 0xD800 ∨ 0xE000 ≤ c) (h0 : byteAt s k = .ok (0xE0 + c / 4096))
      (h1 : byteAt s (k + 1) = .ok (0x80 + c / 64 % 64)) (h2 : byteAt s (k + 2) = .ok (0x80 + c % 64))
  | four (h : 0x10000 ≤ c) (h' : c ≤ 0x10FFFF) (h0 : byteAt s k = .ok (0xF0 + c / 262144))
      (h1 : byteAt s (k + 1) = .ok (0x80 + c / 4096 % 64)) (h2 : byteAt s (k + 2) = .ok (0x80 + c / 64 % 64))
      (h3 : byteAt s (k + 3) = .ok (0x80 + c % 64))

theorem byteAt_app (pre u rest : List UInt8) (i : Nat) (h : i < u.length) :
    byteAt (pre ++ u ++ rest) (pre.length + i) = .ok u[i].toNat := by
  unfold byteAt
  rw [List.append_assoc, List.getElem?_append_right (by omega), Nat.add_sub_cancel_left,
    List.getElem?_append_left h, List.getElem?_eq_getElem h]

theorem bytes_of_starts {s : List UInt8} {k c : Nat} (h : Starts s k c) : Bytes s k c := by
  obtain ⟨hc, pre, rest, rfl, rfl⟩ := h
  have key := byteAt_app pre (utf8 c) rest
  unfold IsScalar at hc
  revert key
  unfold utf8
  split
  · intro key
    refine .one (by omega) ?_
    have := key 0 (by simp)
    simpa [Nat.mod_eq_of_lt (show c < 256 by omega)] using this
  · split
    · intro key
      refine .two (by omega) (by omega) ?_ ?_
      · have := key 0 (by simp)
        simpa [Nat.mod_eq_of_lt (show 192 + c / 64 < 256 by omega)] using this
      · have := key 1 (by simp)
        simpa [Nat.mod_eq_of_lt (show 128 + c % 64 < 256 by omega)] using this
    · split
      · intro key
        refine .three (by omega) (by omega) (by omega) ?_ ?_ ?_
        · have := key 0 (by simp)
          simpa [Nat.mod_eq_of_lt (show 224 + c / 4096 < 256 by omega)] using this
        · have := key 1 (by simp)
          simpa [Nat.mod_eq_of_lt (show 128 + c / 64 % 64 < 256 by omega)] using this
        · have := key 2 (by simp)
          simpa [Nat.mod_eq_of_lt (show 128 + c % 64 < 256 by omega)] using this
      · intro key
        refine .four (by omega) (by omega) ?_ ?_ ?_ ?_
        · have := key 0 (by simp)
          simpa [Nat.mod_eq_of_lt (show 240 + c / 262144 < 256 by omega)] using this
        · have := key 1 (by simp)
          simpa [Nat.mod_eq_of_lt (show 128 + c / 4096 % 64 < 256 by omega)] using this
        · have := key 2 (by simp)
          simpa [Nat.mod_eq_of_lt (show 128 + c / 64 % 64 < 256 by omega)] using this
        · have := key 3 (by simp)
          simpa [Nat.mod_eq_of_lt (show 128 + c % 64 < 256 by omega)] using this

@[simp] theorem orElse_ok (a b : Bool) : orElse (.ok a) (.ok b) = .ok (a || b) := by cases a <;> rfl
@[simp] theorem orElse_false (b : Except Fail Bool) : orElse (.ok false) b = b := rfl
@[simp] theorem orElse_true (b : Except Fail Bool) : orElse (.ok true) b = .ok true := rfl
@[simp] theorem andAlso_ok (a b : Bool) : andAlso (.ok a) (.ok b) = .ok (a && b) := by cases a <;> rfl
@[simp] theorem andAlso_false (b : Except Fail Bool) : andAlso (.ok false) b = .ok false := rfl
@[simp] theorem andAlso_true (b : Except Fail Bool) : andAlso (.ok true) b = b := rfl
@[simp] theorem notB_ok (a : Bool) : notB (.ok a) = .ok !a := rfl

theorem testAt_ok {s : List UInt8} {k b : Nat} (p : Nat → Bool) (h : byteAt s k = .ok b) : testAt s k p = .ok (p b) := by
  simp [testAt, h]

theorem checkAt_ok {s : List UInt8} {k b : Nat} (o : Nat) (h : byteAt s k = .ok b) : checkAt s o k = .ok (b == o) :=
  testAt_ok _ h

theorem rangeAt_ok {s : List UInt8} {k b : Nat} (lo hi : Nat) (h : byteAt s k = .ok b) :
    rangeAt s k lo hi = .ok (decide (lo ≤ b) && decide (b ≤ hi)) := by
  simp [rangeAt, testAt_ok _ h]

/-- The first byte alone decides about ASCII. -/
theorem first_byte {s : List UInt8} {k c : Nat} (h : Starts s k c) :
    ∃ b, byteAt s k = .ok b ∧ (b < 0x80 ↔ c < 0x80) ∧ (c < 0x80 → b = c) := by
  cases bytes_of_starts h with
  | one h h0 => exact ⟨_, h0, by omega, by omega⟩
  | two h h' h0 _ => exact ⟨_, h0, by omega, by omega⟩
  | three h h' _ h0 _ _ => exact ⟨_, h0, by omega, by omega⟩
  | four h h' h0 _ _ _ => exact ⟨_, h0, by omega, by omega⟩

/-- `CHECK_AT` with an ASCII character. -/
theorem C54_check {s : List UInt8} {k c : Nat} (h : Starts s k c) (o : Nat) (ho : o < 0x80) :
    checkAt s o k = .ok (c == o) := by
  obtain ⟨b, hb, h1, h2⟩ := first_byte h
  rw [checkAt_ok o hb]
  congr 1
  rw [Bool.eq_iff_iff]
  simp only [beq_iff_eq]
  constructor
  · intro e; have := h2 (by omega); omega
  · intro e; have := h2 (by omega); omega

theorem range_of {s : List UInt8} {k c : Nat} (h : Starts s k c) (lo hi : Nat) (ho : hi < 0x80) :
    rangeAt s k lo hi = .ok (decide (lo ≤ c) && decide (c ≤ hi)) := by
  obtain ⟨b, hb, h1, h2⟩ := first_byte h
  rw [rangeAt_ok lo hi hb]
  congr 1
  rw [Bool.eq_iff_iff]
  simp only [Bool.and_eq_true, decide_eq_true_eq]
  constructor
  · rintro ⟨e, e'⟩; have := h2 (by omega); omega
  · rintro ⟨e, e'⟩; have := h2 (by omega); omega

theorem C54_alpha {s : List UInt8} {k c : Nat} (h : Starts s k c) : alphaAt s k = .ok (isAlpha c) := by
  simp only [alphaAt, range_of h _ 57 (by omega), range_of h _ 90 (by omega), range_of h _ 122 (by omega),
    C54_check h 95 (by omega), C54_check h 45 (by omega), orElse_ok, isAlpha, Bool.or_assoc]

theorem C54_digit {s : List UInt8} {k c : Nat} (h : Starts s k c) : digitAt s k = .ok (isDigit c) :=
  range_of h _ 57 (by omega)

theorem C54_hex {s : List UInt8} {k c : Nat} (h : Starts s k c) : hexAt s k = .ok (isHex c) := by
  simp only [hexAt, range_of h _ 57 (by omega), range_of h _ 70 (by omega), range_of h _ 102 (by omega), orElse_ok,
    isHex, Bool.or_assoc]

/-- The value of a digit. -/
theorem C54_asDigit {s : List UInt8} {k c : Nat} (h : Starts s k c) (hd : isDigit c = true) :
    asDigitAt s k = .ok (asDigit c : Int) ∧ asDigit c < 10 := by
  obtain ⟨b, hb, h1, h2⟩ := first_byte h
  simp only [isDigit, Bool.and_eq_true, decide_eq_true_eq] at hd
  have := h2 (by omega)
  subst this
  refine ⟨?_, ?_⟩
  · simp only [asDigitAt, hb, asDigit]; congr 1; omega
  · simp only [asDigit]; omega

/-- The value of a hexadecimal digit. -/
theorem C54_asHex {s : List UInt8} {k c : Nat} (h : Starts s k c) (hd : isHex c = true) :
    asHexAt s k = .ok (asHex c : Int) ∧ asHex c < 16 := by
  obtain ⟨b, hb, h1, h2⟩ := first_byte h
  simp only [isHex, Bool.or_eq_true, Bool.and_eq_true, decide_eq_true_eq] at hd
  have := h2 (by omega)
  subst this
  simp only [asHexAt, hb, asHex, Bool.and_eq_true, decide_eq_true_eq]
  refine ⟨?_, ?_⟩
  · congr 1
    repeat' split
    all_goals omega
  · repeat' split
    all_goals omega

theorem C54_ascii {s : List UInt8} {k c : Nat} (h : Starts s k c) : asciiAt s k = .ok (isAscii c) := by
  obtain ⟨b, hb, h1, h2⟩ := first_byte h
  simp only [asciiAt, testAt_ok _ hb, isAscii]
  congr 1
  rw [decide_eq_decide]
  omega

theorem C54_zero {s : List UInt8} {k c : Nat} (h : Starts s k c) : zAt s k = .ok (isZ c) := C54_check h 0 (by omega)

theorem C54_space {s : List UInt8} {k c : Nat} (h : Starts s k c) : spaceAt s k = .ok (isSpace c) :=
  C54_check h 32 (by omega)

theorem C54_tab {s : List UInt8} {k c : Nat} (h : Starts s k c) : tabAt s k = .ok (isTab c) := C54_check h 9 (by omega)

theorem C54_blank {s : List UInt8} {k c : Nat} (h : Starts s k c) : blankAt s k = .ok (isBlank c) := by
  simp only [blankAt, C54_space h, C54_tab h, orElse_ok, isBlank]

theorem ne_beq {a b : Nat} (h : a ≠ b) : (a == b) = false := by simpa using h

theorem C54_bom {s : List UInt8} {k c : Nat} (h : Starts s k c) : bomAt s k = .ok (isBom c) := by
  unfold bomAt isBom
  cases bytes_of_starts h with
  | one h h0 => simp only [checkAt_ok _ h0, ne_beq (show c ≠ 0xEF by omega), ne_beq (show c ≠ 0xFEFF by omega), andAlso_false]
  | two h h' h0 _ =>
    simp only [checkAt_ok _ h0, ne_beq (show 0xC0 + c / 64 ≠ 0xEF by omega), ne_beq (show c ≠ 0xFEFF by omega), andAlso_false]
  | three h h' _ h0 h1 h2 =>
    simp only [checkAt_ok _ h0, checkAt_ok _ h1, checkAt_ok _ h2, andAlso_ok]
    congr 1
    rw [Bool.eq_iff_iff]
    simp only [Bool.and_eq_true, beq_iff_eq]
    omega
  | four h h' h0 _ _ _ =>
    simp only [checkAt_ok _ h0, ne_beq (show 0xF0 + c / 262144 ≠ 0xEF by omega), ne_beq (show c ≠ 0xFEFF by omega),
      andAlso_false]

theorem C54_break {s : List UInt8} {k c : Nat} (h : Starts s k c) : breakAt s k = .ok (isBreak c) := by
  unfold breakAt isBreak
  cases bytes_of_starts h with
  | one h h0 =>
    simp only [checkAt_ok _ h0, ne_beq (show c ≠ 0xC2 by omega), ne_beq (show c ≠ 0xE2 by omega), andAlso_false, orElse_ok]
    congr 1
    rw [Bool.eq_iff_iff]
    simp only [Bool.or_eq_true, beq_iff_eq, Bool.false_eq_true, or_false]
    omega
  | two h h' h0 h1 =>
    simp only [checkAt_ok _ h0, checkAt_ok _ h1, ne_beq (show 0xC0 + c / 64 ≠ 0xE2 by omega), andAlso_false, andAlso_ok,
      orElse_ok]
    congr 1
    rw [Bool.eq_iff_iff]
    simp only [Bool.or_eq_true, Bool.and_eq_true, beq_iff_eq, Bool.false_eq_true, or_false]
    omega
  | three h h' _ h0 h1 h2 =>
    simp only [checkAt_ok _ h0, checkAt_ok _ h1, checkAt_ok _ h2, andAlso_ok, orElse_ok]
    congr 1
    rw [Bool.eq_iff_iff]
    simp only [Bool.or_eq_true, Bool.and_eq_true, beq_iff_eq]
    omega
  | four h h' h0 _ _ _ =>
    simp only [checkAt_ok _ h0, ne_beq (show 0xF0 + c / 262144 ≠ 0xC2 by omega),
      ne_beq (show 0xF0 + c / 262144 ≠ 0xE2 by omega), andAlso_false, orElse_ok]
    congr 1
    rw [Bool.eq_iff_iff]
    simp only [Bool.or_eq_true, beq_iff_eq, Bool.false_eq_true, or_false]
    omega

theorem C54_breakz {s : List UInt8} {k c : Nat} (h : Starts s k c) : breakzAt s k = .ok (isBreakz c) := by
  simp only [breakzAt, C54_break h, C54_zero h, orElse_ok, isBreakz]

theorem C54_spacez {s : List UInt8} {k c : Nat} (h : Starts s k c) : spacezAt s k = .ok (isSpace c || isBreakz c) := by
  simp only [spacezAt, C54_space h, C54_breakz h, orElse_ok]

theorem C54_blankz {s : List UInt8} {k c : Nat} (h : Starts s k c) : blankzAt s k = .ok (isBlankz c) := by
  simp only [blankzAt, C54_blank h, C54_breakz h, orElse_ok, isBlankz]

/-- The two characters of a CR LF. -/
theorem C54_crlf {s : List UInt8} {k c d : Nat} (h : Starts s k c) (h' : Starts s (k + (utf8 c).length) d) :
    crlfAt s k = .ok (c == 0xD && d == 0xA) := by
  unfold crlfAt
  rw [C54_check h 0xD (by omega)]
  by_cases e : c = 0xD
  · subst e
    have := C54_check h' 0xA (by omega)
    simp only [show (utf8 0xD).length = 1 from rfl] at this
    simp only [this, andAlso_ok]
  · simp only [ne_beq e, andAlso_false, Bool.false_and]

theorem C54_printable {s : List UInt8} {k c : Nat} (h : Starts s k c) : printableAt s k = .ok (isPrintable c) := by
  unfold printableAt isPrintable
  cases bytes_of_starts h with
  | one h h0 =>
    simp only [checkAt_ok _ h0, testAt_ok _ h0, ne_beq (show c ≠ 0xC2 by omega), ne_beq (show c ≠ 0xED by omega),
      ne_beq (show c ≠ 0xEF by omega), andAlso_false, andAlso_ok, orElse_ok]
    congr 1
    rw [Bool.eq_iff_iff]
    simp only [Bool.or_eq_true, Bool.and_eq_true, beq_iff_eq, Bool.false_eq_true, or_false, decide_eq_true_eq,
      Bool.not_eq_true', Bool.or_eq_false_iff, beq_eq_false_iff_ne, or_false, false_or, ne_eq]
    omega
  | two h h' h0 h1 =>
    simp only [checkAt_ok _ h0, checkAt_ok _ h1, testAt_ok _ h0, testAt_ok _ h1,
      ne_beq (show 0xC0 + c / 64 ≠ 0xED by omega), ne_beq (show 0xC0 + c / 64 ≠ 0xEF by omega), andAlso_false, andAlso_ok,
      orElse_ok]
    congr 1
    rw [Bool.eq_iff_iff]
    simp only [Bool.or_eq_true, Bool.and_eq_true, beq_iff_eq, Bool.false_eq_true, or_false, decide_eq_true_eq,
      Bool.not_eq_true', Bool.or_eq_false_iff, beq_eq_false_iff_ne, or_false, false_and, false_or, ne_eq]
    omega
  | three h h' _ h0 h1 h2 =>
    simp only [checkAt_ok _ h0, checkAt_ok _ h1, checkAt_ok _ h2, testAt_ok _ h0, testAt_ok _ h1, andAlso_ok, orElse_ok,
      notB_ok]
    congr 1
    rw [Bool.eq_iff_iff]
    simp only [Bool.or_eq_true, Bool.and_eq_true, beq_iff_eq, decide_eq_true_eq, Bool.not_eq_true',
      Bool.or_eq_false_iff, Bool.and_eq_false_iff, beq_eq_false_iff_ne]
    omega
  | four h h' h0 _ _ _ =>
    simp only [checkAt_ok _ h0, testAt_ok _ h0, ne_beq (show 0xF0 + c / 262144 ≠ 0xC2 by omega),
      ne_beq (show 0xF0 + c / 262144 ≠ 0xED by omega), ne_beq (show 0xF0 + c / 262144 ≠ 0xEF by omega), andAlso_false,
      andAlso_ok, orElse_ok]
    congr 1
    rw [Bool.eq_iff_iff]
    simp only [Bool.or_eq_true, Bool.and_eq_true, beq_iff_eq, Bool.false_eq_true, or_false, decide_eq_true_eq,
      Bool.not_eq_true', Bool.or_eq_false_iff, beq_eq_false_iff_ne, or_false, false_or, ne_eq]
    omega

/-- `WIDTH` is the length of the encoding, so `MOVE` goes to the next character. -/
theorem C54_width {s : List UInt8} {k c : Nat} (h : Starts s k c) : widthAt s k = .ok (utf8 c).length := by
  unfold widthAt utf8
  cases bytes_of_starts h with
  | one h h0 => simp only [h0, width_eq c (by omega), h, if_true, List.length_cons, List.length_nil]
  | two h h' h0 _ =>
    simp only [h0, width_eq (0xC0 + c / 64) (by omega), if_neg (show ¬ c < 0x80 by omega), if_pos h',
      if_neg (show ¬ 192 + c / 64 < 128 by omega), if_neg (show ¬ 192 + c / 64 < 192 by omega),
      if_pos (show 192 + c / 64 < 224 by omega), List.length_cons, List.length_nil]
  | three h h' _ h0 _ _ =>
    simp only [h0, width_eq (0xE0 + c / 4096) (by omega), if_neg (show ¬ c < 0x80 by omega), if_neg (show ¬ c < 0x800 by omega),
      if_pos h', if_neg (show ¬ 224 + c / 4096 < 128 by omega), if_neg (show ¬ 224 + c / 4096 < 192 by omega),
      if_neg (show ¬ 224 + c / 4096 < 224 by omega), if_pos (show 224 + c / 4096 < 240 by omega), List.length_cons,
      List.length_nil]
  | four h h' h0 _ _ _ =>
    simp only [h0, width_eq (0xF0 + c / 262144) (by omega), if_neg (show ¬ c < 0x80 by omega),
      if_neg (show ¬ c < 0x800 by omega), if_neg (show ¬ c < 0x10000 by omega),
      if_neg (show ¬ 240 + c / 262144 < 128 by omega), if_neg (show ¬ 240 + c / 262144 < 192 by omega),
      if_neg (show ¬ 240 + c / 262144 < 224 by omega), if_neg (show ¬ 240 + c / 262144 < 240 by omega),
      if_pos (show 240 + c / 262144 < 248 by omega), List.length_cons, List.length_nil]

/-- `COPY` copies exactly the character. -/
theorem C54_copy {s : List UInt8} {k c : Nat} (h : Starts s k c) : copyAt s k = .ok (utf8 c) := by
  unfold copyAt
  rw [C54_width h]
  obtain ⟨_, pre, rest, rfl, rfl⟩ := h
  simp [List.append_assoc]

/-- The emitter decodes the character. -/
theorem C54_value {s : List UInt8} {k c : Nat} (h : Starts s k c) : valueAt s k = .ok c := by
  unfold valueAt
  cases bytes_of_starts h with
  | one h h0 =>
    simp only [h0, width_eq c (by omega), leadBits_eq c (by omega), if_pos (show c < 128 by omega), Nat.sub_self, valueLoop]
  | two h h' h0 h1 =>
    simp only [h0, width_eq (0xC0 + c / 64) (by omega), leadBits_eq (0xC0 + c / 64) (by omega),
      if_neg (show ¬ 192 + c / 64 < 128 by omega), if_neg (show ¬ 192 + c / 64 < 192 by omega),
      if_pos (show 192 + c / 64 < 224 by omega), valueLoop, h1, and3F, Nat.shiftLeft_eq]
    congr 1
    omega
  | three h h' _ h0 h1 h2 =>
    simp only [h0, width_eq (0xE0 + c / 4096) (by omega), leadBits_eq (0xE0 + c / 4096) (by omega),
      if_neg (show ¬ 224 + c / 4096 < 128 by omega), if_neg (show ¬ 224 + c / 4096 < 192 by omega),
      if_neg (show ¬ 224 + c / 4096 < 224 by omega), if_pos (show 224 + c / 4096 < 240 by omega), valueLoop, h1, h2, and3F,
      Nat.shiftLeft_eq]
    congr 1
    omega
  | four h h' h0 h1 h2 h3 =>
    simp only [h0, width_eq (0xF0 + c / 262144) (by omega), leadBits_eq (0xF0 + c / 262144) (by omega),
      if_neg (show ¬ 240 + c / 262144 < 128 by omega), if_neg (show ¬ 240 + c / 262144 < 192 by omega),
      if_neg (show ¬ 240 + c / 262144 < 224 by omega), if_neg (show ¬ 240 + c / 262144 < 240 by omega),
      if_pos (show 240 + c / 262144 < 248 by omega), valueLoop, h1, h2, h3, and3F, Nat.shiftLeft_eq]
    congr 1
    omega

/-- What the scanner model sees at offset `j` of the reader's buffer is a character that begins there. -/
theorem C54_scanner {st : RS} {j c : Nat} (h : lookR st j = .ok c) : Starts st.buf j c := by
  unfold lookR at h
  split at h
  · generalize e : stepUtf8 true 0 (st.buf.drop j) = x at h
    cases x with
    | char v w =>
      obtain ⟨h1, h2, h3⟩ := stepUtf8_char e
      simp only [Except.ok.injEq] at h
      subst h
      refine ⟨h3, st.buf.take j, (st.buf.drop j).drop w, ?_, ?_⟩
      · rw [List.append_assoc, ← h1, List.take_append_drop]
      · rw [List.length_take]
        have : 0 < (st.buf.drop j).length := by
          rw [h1, List.length_append]
          have := utf8_length_pos v
          omega
        rw [List.length_drop] at this
        omega
    | _ => simp at h
  · simp at h

/-- What the emitter model sees at the head of the rest of a text is a character that begins after the encoding of what
comes before it; the end is the NUL. -/
theorem C54_emitter (pre cs : Text) (hcs : ∀ c ∈ cs, IsScalar c) :
    Starts (utf8s (pre ++ cs) ++ [0]) (utf8s pre).length (nextC cs) := by
  cases cs with
  | nil => exact ⟨Or.inl (by decide), utf8s pre, [], by simp [nextC, show utf8 0 = [0] from rfl], rfl⟩
  | cons c cs =>
    exact ⟨hcs c List.mem_cons_self, utf8s pre, utf8s cs ++ [0], by simp [nextC, utf8s, List.flatMap_append], rfl⟩

/-- A text with characters of all lengths and a line break of three bytes. -/
example : Starts (utf8s [0x61, 0xE9, 0x2028, 0x1F600] ++ [0]) 3 0x2028 :=
  ⟨by decide, [0x61, 0xC3, 0xA9], [0xF0, 0x9F, 0x98, 0x80, 0], by decide, rfl⟩

end LibYaml
