import Verif.Proofs.Bits

/-! One decoding step agrees with the encodings of `Spec.Unicode`. -/

namespace LibYaml

open Spec

theorem ofNat_toNat (b : UInt8) (n : Nat) (h : n = b.toNat) : UInt8.ofNat n = b := by
  subst h; simp

theorem toNat_ofNat_lt (n : Nat) (h : n < 256) : (UInt8.ofNat n).toNat = n := by
  simp [Nat.mod_eq_of_lt h]

theorem encodeBuf_eq (c : Nat) : encodeBuf c = utf8 c := by
  unfold encodeBuf utf8
  have e1 : (c ≤ 0x7F) ↔ c < 0x80 := by omega
  have e2 : (c ≤ 0x7FF) ↔ c < 0x800 := by omega
  have e3 : (c ≤ 0xFFFF) ↔ c < 0x10000 := by omega
  simp only [e1, e2, e3, and3F, Nat.shiftRight_eq_div_pow]

theorem utf8_length_pos (c : Nat) : 0 < (utf8 c).length := by
  unfold utf8; split <;> (try split) <;> (try split) <;> simp

theorem utf8_length_le (c : Nat) : (utf8 c).length ≤ 4 := by
  unfold utf8; split <;> (try split) <;> (try split) <;> simp

theorem utf16_length (le : Bool) (c : Nat) : (utf16 le c).length = if c < 0x10000 then 2 else 4 := by
  unfold utf16 unit16; split <;> split <;> simp

theorem encode_length_pos (e : Enc) (c : Nat) : 0 < (encode e c).length := by
  cases e <;> simp only [encode, utf16_length] <;> first | exact utf8_length_pos c | (split <;> decide)

/-- The UTF-8 form of a character needs at most 3/2 of the bytes of its input form. -/
theorem utf8_length_vs_encode (e : Enc) (c : Nat) : 2 * (utf8 c).length ≤ 3 * (encode e c).length := by
  cases e
  · simp only [encode]; omega
  all_goals
    simp only [encode, utf16_length]
    unfold utf8
    split <;> (try split) <;> (try split) <;> simp <;> (try split) <;> omega

/-! ### UTF-8 -/

theorem stepUtf8_char {eof : Bool} {off : Nat} {raw : List UInt8} {v w : Nat}
    (h : stepUtf8 eof off raw = .char v w) :
    raw = utf8 v ++ raw.drop w ∧ w = (utf8 v).length ∧ IsScalar v := by
  match raw, h with
  | b :: rest, h =>
    simp only [stepUtf8] at h
    split at h
    · cases h
    split at h
    · split at h <;> cases h
    rename_i hw0 hwl
    split at h
    · cases h
    rename_i value hval
    split at h
    · cases h
    split at h
    · cases h
    rename_i hlen hrange
    injection h with hv hw
    subst hv
    have hb := toNat_lt b
    rw [width_eq _ hb] at hw hw0 hwl hval hlen
    rw [leadBits_eq _ hb] at hval
    unfold IsScalar
    by_cases c1 : b.toNat < 128
    · simp only [c1, if_true] at hw hval hlen hwl
      simp [trailing] at hval
      subst hw
      have : utf8 value = [b] := by
        unfold utf8; rw [if_pos (by omega), ofNat_toNat b _ (by omega)]
      refine ⟨by simp [this], by simp [this], ?_⟩
      omega
    by_cases c2 : b.toNat < 192
    · simp [c1, c2] at hw0
    by_cases c3 : b.toNat < 224
    · simp only [c1, c2, c3, if_true, if_false] at hw hval hlen hwl
      match rest with
      | [] => simp at hwl
      | b1 :: rest =>
        have hb1 := toNat_lt b1
        simp only [trailing, List.take, Nat.reduceSub, ne_eq, trail_iff _ hb1, and3F, Nat.shiftLeft_eq] at hval
        split at hval
        · cases hval
        injection hval with hval
        simp at hlen
        subst hw
        have : utf8 value = [b, b1] := by
          unfold utf8
          rw [if_neg (by omega), if_pos (by omega), ofNat_toNat b _ (by omega), ofNat_toNat b1 _ (by omega)]
        refine ⟨by simp [this], by simp [this], ?_⟩
        omega
    by_cases c4 : b.toNat < 240
    · simp only [c1, c2, c3, c4, if_true, if_false] at hw hval hlen hwl
      match rest with
      | [] => simp at hwl
      | [_] => simp at hwl
      | b1 :: b2 :: rest =>
        have hb1 := toNat_lt b1
        have hb2 := toNat_lt b2
        simp only [trailing, List.take, Nat.reduceSub, ne_eq, trail_iff _ hb1, trail_iff _ hb2, and3F,
          Nat.shiftLeft_eq] at hval
        split at hval
        · cases hval
        split at hval
        · cases hval
        injection hval with hval
        simp at hlen
        subst hw
        have : utf8 value = [b, b1, b2] := by
          unfold utf8
          rw [if_neg (by omega), if_neg (by omega), if_pos (by omega), ofNat_toNat b _ (by omega),
            ofNat_toNat b1 _ (by omega), ofNat_toNat b2 _ (by omega)]
        refine ⟨by simp [this], by simp [this], ?_⟩
        omega
    by_cases c5 : b.toNat < 248
    · simp only [c1, c2, c3, c4, c5, if_true, if_false] at hw hval hlen hwl
      match rest with
      | [] => simp at hwl
      | [_] => simp at hwl
      | [_, _] => simp at hwl
      | b1 :: b2 :: b3 :: rest =>
        have hb1 := toNat_lt b1
        have hb2 := toNat_lt b2
        have hb3 := toNat_lt b3
        simp only [trailing, List.take, Nat.reduceSub, ne_eq, trail_iff _ hb1, trail_iff _ hb2, trail_iff _ hb3,
          and3F, Nat.shiftLeft_eq] at hval
        split at hval
        · cases hval
        split at hval
        · cases hval
        split at hval
        · cases hval
        injection hval with hval
        simp at hlen
        subst hw
        have : utf8 value = [b, b1, b2, b3] := by
          unfold utf8
          rw [if_neg (by omega), if_neg (by omega), if_neg (by omega), ofNat_toNat b _ (by omega),
            ofNat_toNat b1 _ (by omega), ofNat_toNat b2 _ (by omega), ofNat_toNat b3 _ (by omega)]
        refine ⟨by simp [this], by simp [this], ?_⟩
        omega
    · simp [c1, c2, c3, c4, c5] at hw0

theorem stepUtf8_of_utf8 (eof : Bool) (off : Nat) (c : Nat) (rest : List UInt8) (hc : IsScalar c) :
    stepUtf8 eof off (utf8 c ++ rest) = .char c (utf8 c).length := by
  unfold IsScalar at hc
  unfold utf8
  split
  · rename_i h
    have e : (UInt8.ofNat c).toNat = c := toNat_ofNat_lt _ (by omega)
    simp only [List.cons_append, List.nil_append, stepUtf8, e, width_eq c (by omega), leadBits_eq c (by omega), h,
      if_true]
    simp [trailing]
    omega
  split
  · rename_i h1 h
    have e0 : (UInt8.ofNat (0xC0 + c / 64)).toNat = 0xC0 + c / 64 := toNat_ofNat_lt _ (by omega)
    have e1 : (UInt8.ofNat (0x80 + c % 64)).toNat = 0x80 + c % 64 := toNat_ofNat_lt _ (by omega)
    have i1 : ¬ (0xC0 + c / 64 < 128) := by omega
    have i2 : ¬ (0xC0 + c / 64 < 192) := by omega
    have i3 : (0xC0 + c / 64 < 224) := by omega
    have hv : (0xC0 + c / 64 - 192) * 2 ^ 6 + (0x80 + c % 64) % 64 = c := by omega
    have t1 : 128 ≤ 0x80 + c % 64 ∧ 0x80 + c % 64 < 192 := by omega
    simp only [List.cons_append, List.nil_append, stepUtf8, e0, e1, width_eq (0xC0 + c / 64) (by omega),
      leadBits_eq (0xC0 + c / 64) (by omega), i1, i2, i3, if_true, if_false, trailing, List.take, Nat.reduceSub,
      trail_iff (0x80 + c % 64) (by omega), and3F, Nat.shiftLeft_eq, hv, t1, ne_eq]
    simp
    rw [if_neg (by omega), if_neg (by omega), if_neg (by omega)]
  split
  · rename_i h2 h1 h
    have e0 : (UInt8.ofNat (0xE0 + c / 4096)).toNat = 0xE0 + c / 4096 := toNat_ofNat_lt _ (by omega)
    have e1 : (UInt8.ofNat (0x80 + c / 64 % 64)).toNat = 0x80 + c / 64 % 64 := toNat_ofNat_lt _ (by omega)
    have e2 : (UInt8.ofNat (0x80 + c % 64)).toNat = 0x80 + c % 64 := toNat_ofNat_lt _ (by omega)
    have i1 : ¬ (0xE0 + c / 4096 < 128) := by omega
    have i2 : ¬ (0xE0 + c / 4096 < 192) := by omega
    have i3 : ¬ (0xE0 + c / 4096 < 224) := by omega
    have i4 : (0xE0 + c / 4096 < 240) := by omega
    have hv : ((0xE0 + c / 4096 - 224) * 2 ^ 6 + (0x80 + c / 64 % 64) % 64) * 2 ^ 6 + (0x80 + c % 64) % 64 = c := by
      omega
    have t1 : 128 ≤ 0x80 + c / 64 % 64 ∧ 0x80 + c / 64 % 64 < 192 := by omega
    have t2 : 128 ≤ 0x80 + c % 64 ∧ 0x80 + c % 64 < 192 := by omega
    simp only [List.cons_append, List.nil_append, stepUtf8, e0, e1, e2, width_eq (0xE0 + c / 4096) (by omega),
      leadBits_eq (0xE0 + c / 4096) (by omega), i1, i2, i3, i4, if_true, if_false, trailing, List.take,
      Nat.reduceSub, trail_iff (0x80 + c / 64 % 64) (by omega), trail_iff (0x80 + c % 64) (by omega), and3F,
      Nat.shiftLeft_eq, hv, t1, t2, ne_eq]
    simp
    rw [if_neg (by omega), if_neg (by omega), if_neg (by omega)]
  · rename_i h2 h1 h
    have e0 : (UInt8.ofNat (0xF0 + c / 262144)).toNat = 0xF0 + c / 262144 := toNat_ofNat_lt _ (by omega)
    have e1 : (UInt8.ofNat (0x80 + c / 4096 % 64)).toNat = 0x80 + c / 4096 % 64 := toNat_ofNat_lt _ (by omega)
    have e2 : (UInt8.ofNat (0x80 + c / 64 % 64)).toNat = 0x80 + c / 64 % 64 := toNat_ofNat_lt _ (by omega)
    have e3 : (UInt8.ofNat (0x80 + c % 64)).toNat = 0x80 + c % 64 := toNat_ofNat_lt _ (by omega)
    have i1 : ¬ (0xF0 + c / 262144 < 128) := by omega
    have i2 : ¬ (0xF0 + c / 262144 < 192) := by omega
    have i3 : ¬ (0xF0 + c / 262144 < 224) := by omega
    have i4 : ¬ (0xF0 + c / 262144 < 240) := by omega
    have i5 : (0xF0 + c / 262144 < 248) := by omega
    have hv : (((0xF0 + c / 262144 - 240) * 2 ^ 6 + (0x80 + c / 4096 % 64) % 64) * 2 ^ 6
        + (0x80 + c / 64 % 64) % 64) * 2 ^ 6 + (0x80 + c % 64) % 64 = c := by
      omega
    have t1 : 128 ≤ 0x80 + c / 4096 % 64 ∧ 0x80 + c / 4096 % 64 < 192 := by omega
    have t2 : 128 ≤ 0x80 + c / 64 % 64 ∧ 0x80 + c / 64 % 64 < 192 := by omega
    have t3 : 128 ≤ 0x80 + c % 64 ∧ 0x80 + c % 64 < 192 := by omega
    simp only [List.cons_append, List.nil_append, stepUtf8, e0, e1, e2, e3, width_eq (0xF0 + c / 262144) (by omega),
      leadBits_eq (0xF0 + c / 262144) (by omega), i1, i2, i3, i4, i5, if_true, if_false, trailing, List.take,
      Nat.reduceSub, trail_iff (0x80 + c / 4096 % 64) (by omega), trail_iff (0x80 + c / 64 % 64) (by omega),
      trail_iff (0x80 + c % 64) (by omega), and3F, Nat.shiftLeft_eq, hv, t1, t2, t3, ne_eq]
    simp
    rw [if_neg (by omega), if_neg (by omega), if_neg (by omega)]

/-- The leading octet of an encoded scalar value announces its length. -/
theorem utf8_head (c : Nat) (hc : IsScalar c) :
    ∃ b t, utf8 c = b :: t ∧ width b.toNat = (utf8 c).length := by
  unfold IsScalar at hc
  unfold utf8
  split
  · refine ⟨_, _, rfl, ?_⟩
    rw [toNat_ofNat_lt _ (by omega), width_eq _ (by omega)]; simp; omega
  split
  · refine ⟨_, _, rfl, ?_⟩
    rw [toNat_ofNat_lt _ (by omega), width_eq _ (by omega)]
    rw [if_neg (by omega), if_neg (by omega), if_pos (by omega)]; simp
  split
  · refine ⟨_, _, rfl, ?_⟩
    rw [toNat_ofNat_lt _ (by omega), width_eq _ (by omega)]
    rw [if_neg (by omega), if_neg (by omega), if_neg (by omega), if_pos (by omega)]; simp
  · refine ⟨_, _, rfl, ?_⟩
    rw [toNat_ofNat_lt _ (by omega), width_eq _ (by omega)]
    rw [if_neg (by omega), if_neg (by omega), if_neg (by omega), if_neg (by omega), if_pos (by omega)]; simp

theorem stepUtf8_incomplete (off c : Nat) (p q : List UInt8) (hc : IsScalar c) (h : utf8 c = p ++ q)
    (hq : q ≠ []) : stepUtf8 false off p = .incomplete := by
  match p with
  | [] => rfl
  | b :: p =>
    obtain ⟨b', t, hb, hw⟩ := utf8_head c hc
    rw [hb, List.cons_append] at h
    injection h with h1 h2
    subst h1
    have hl : (utf8 c).length = p.length + 1 + q.length := by rw [hb]; simp [h2]; omega
    have : 0 < q.length := List.length_pos_iff.mpr hq
    simp only [stepUtf8, hw, hl]
    rw [if_neg (by omega), if_pos (by simp; omega)]
    simp

/-! ### UTF-16 -/

theorem unit_lt (le : Bool) (b0 b1 : UInt8) : unit le b0 b1 < 65536 := by
  have := toNat_lt b0; have := toNat_lt b1
  unfold unit; split <;> simp only [Nat.shiftLeft_eq] <;> omega

theorem unit16_unit (le : Bool) (b0 b1 : UInt8) : unit16 le (unit le b0 b1) = [b0, b1] := by
  have := toNat_lt b0; have := toNat_lt b1
  unfold unit unit16
  cases le
  · simp only [Nat.shiftLeft_eq, Bool.false_eq_true, if_false]
    rw [ofNat_toNat b0 _ (by omega), ofNat_toNat b1 _ (by omega)]
  · simp only [Nat.shiftLeft_eq, if_true]
    rw [ofNat_toNat b0 _ (by omega), ofNat_toNat b1 _ (by omega)]

theorem unit16_split (le : Bool) (u : Nat) (h : u < 65536) :
    ∃ b0 b1, unit16 le u = [b0, b1] ∧ unit le b0 b1 = u := by
  unfold unit16 unit
  cases le
  · refine ⟨_, _, rfl, ?_⟩
    rw [toNat_ofNat_lt _ (by omega), toNat_ofNat_lt _ (by omega)]
    simp only [Nat.shiftLeft_eq]; simp; omega
  · refine ⟨_, _, rfl, ?_⟩
    rw [toNat_ofNat_lt _ (by omega), toNat_ofNat_lt _ (by omega)]
    simp only [Nat.shiftLeft_eq]; simp; omega

theorem stepUtf16_char {le eof : Bool} {off : Nat} {raw : List UInt8} {v w : Nat}
    (h : stepUtf16 le eof off raw = .char v w) :
    raw = utf16 le v ++ raw.drop w ∧ w = (utf16 le v).length ∧ IsScalar v := by
  match raw, h with
  | [], h => simp only [stepUtf16] at h; split at h <;> cases h
  | [_], h => simp only [stepUtf16] at h; split at h <;> cases h
  | b0 :: b1 :: rest, h =>
    have hu := unit_lt le b0 b1
    simp only [stepUtf16, andFC00 _ hu] at h
    split at h
    · cases h
    split at h
    · rename_i hlow hhigh
      match rest, h with
      | [], h => simp only at h; split at h <;> cases h
      | [_], h => simp only at h; split at h <;> cases h
      | b2 :: b3 :: rest, h =>
        have hu2 := unit_lt le b2 b3
        simp only [andFC00 _ hu2, and3FF, Nat.shiftLeft_eq] at h
        split at h
        · cases h
        rename_i hl2
        injection h with hv hw
        subst hw
        have e1 : 0xD800 + (v - 0x10000) / 1024 = unit le b0 b1 := by omega
        have e2 : 0xDC00 + (v - 0x10000) % 1024 = unit le b2 b3 := by omega
        have hvge : ¬ v < 0x10000 := by omega
        have : utf16 le v = [b0, b1, b2, b3] := by
          unfold utf16
          rw [if_neg hvge, e1, e2, unit16_unit, unit16_unit]; rfl
        refine ⟨by simp [this], by simp [this], ?_⟩
        unfold IsScalar; omega
    · rename_i hlow hhigh
      injection h with hv hw
      subst hv hw
      have : utf16 le (unit le b0 b1) = [b0, b1] := by
        unfold utf16; rw [if_pos hu, unit16_unit]
      refine ⟨by simp [this], by simp [this], ?_⟩
      unfold IsScalar; omega

theorem stepUtf16_of_utf16 (le eof : Bool) (off : Nat) (c : Nat) (rest : List UInt8) (hc : IsScalar c) :
    stepUtf16 le eof off (utf16 le c ++ rest) = .char c (utf16 le c).length := by
  unfold IsScalar at hc
  rw [utf16_length]
  unfold utf16
  split
  · rename_i h
    obtain ⟨b0, b1, hb, hu⟩ := unit16_split le c h
    rw [hb]
    simp only [List.cons_append, List.nil_append, stepUtf16, hu, andFC00 c h]
    rw [if_neg (by omega), if_neg (by omega)]
  · rename_i h
    obtain ⟨b0, b1, hb, hu⟩ := unit16_split le (0xD800 + (c - 0x10000) / 1024) (by omega)
    obtain ⟨b2, b3, hb2, hu2⟩ := unit16_split le (0xDC00 + (c - 0x10000) % 1024) (by omega)
    rw [hb, hb2]
    simp only [List.cons_append, List.nil_append, stepUtf16, hu, hu2]
    rw [andFC00 _ (by omega), andFC00 _ (by omega), if_neg (by omega), if_pos (by omega), if_neg (by omega)]
    congr 1
    simp only [and3FF, Nat.shiftLeft_eq]
    omega

theorem stepUtf16_incomplete (le : Bool) (off c : Nat) (p q : List UInt8) (hc : IsScalar c)
    (h : utf16 le c = p ++ q) (hq : q ≠ []) : stepUtf16 le false off p = .incomplete := by
  unfold IsScalar at hc
  have hql : 0 < q.length := List.length_pos_iff.mpr hq
  have hl := congrArg List.length h
  rw [utf16_length] at hl
  match p with
  | [] => rfl
  | [_] => rfl
  | b0 :: b1 :: [] =>
    unfold utf16 at h
    split at h
    · rename_i hlt; simp only [hlt, if_true, List.length_append, List.length_cons, List.length_nil] at hl; omega
    · obtain ⟨c0, c1, hb, hu⟩ := unit16_split le (0xD800 + (c - 0x10000) / 1024) (by omega)
      rw [hb] at h
      simp at h
      obtain ⟨h0, h1, _⟩ := h
      subst h0 h1
      simp only [stepUtf16, hu]
      rw [andFC00 _ (by omega), if_neg (by omega), if_pos (by omega)]; simp
  | b0 :: b1 :: [b2] =>
    unfold utf16 at h
    split at h
    · rename_i hlt; simp only [hlt, if_true, List.length_append, List.length_cons, List.length_nil] at hl; omega
    · obtain ⟨c0, c1, hb, hu⟩ := unit16_split le (0xD800 + (c - 0x10000) / 1024) (by omega)
      rw [hb] at h
      simp at h
      obtain ⟨h0, h1, _⟩ := h
      subst h0 h1
      simp only [stepUtf16, hu]
      rw [andFC00 _ (by omega), if_neg (by omega), if_pos (by omega)]; simp
  | b0 :: b1 :: b2 :: b3 :: p =>
    simp at hl
    split at hl <;> omega

/-! ### Both -/

theorem step_char {e : Enc} {eof : Bool} {off : Nat} {raw : List UInt8} {v w : Nat}
    (h : step e eof off raw = .char v w) :
    raw = encode e v ++ raw.drop w ∧ w = (encode e v).length ∧ IsScalar v := by
  cases e
  · exact stepUtf8_char h
  · exact stepUtf16_char h
  · exact stepUtf16_char h

theorem step_of_encode (e : Enc) (eof : Bool) (off : Nat) (c : Nat) (rest : List UInt8) (hc : IsScalar c) :
    step e eof off (encode e c ++ rest) = .char c (encode e c).length := by
  cases e
  · exact stepUtf8_of_utf8 eof off c rest hc
  · exact stepUtf16_of_utf16 true eof off c rest hc
  · exact stepUtf16_of_utf16 false eof off c rest hc

theorem step_incomplete (e : Enc) (off c : Nat) (p q : List UInt8) (hc : IsScalar c) (h : encode e c = p ++ q)
    (hq : q ≠ []) : step e false off p = .incomplete := by
  cases e
  · exact stepUtf8_incomplete off c p q hc h hq
  · exact stepUtf16_incomplete true off c p q hc h hq
  · exact stepUtf16_incomplete false off c p q hc h hq

theorem allowed_iff (c : Nat) : allowed c = true ↔ Permitted c := by
  unfold allowed Permitted
  simp only [Bool.or_eq_true, Bool.and_eq_true, decide_eq_true_eq, beq_iff_eq]
  omega

theorem permitted_scalar {c : Nat} (h : Permitted c) : IsScalar c := by
  unfold Permitted at h; unfold IsScalar; omega

theorem permitted_ne_zero {c : Nat} (h : Permitted c) : c ≠ 0 := by
  unfold Permitted at h; omega

end LibYaml
