import Verif.Proofs.EmitGo
import Verif.Proofs.BlockNodes
import Verif.Proofs.EmitterLine

/-!
# The texts of scalars, with the state behind them

The round trips of C43 to C47 say what the writers write; here is what they leave behind, and how long their texts are in a simple key.
-/

namespace LibYaml

open Spec

theorem Quiet.tw {α : Type} {m : EM α} (h : Quiet m) (s : Emitter) : tw m (fun _ _ s' => Kin s s') s := by
  obtain ⟨a, h1, h2⟩ := h s
  unfold LibYaml.tw
  rw [h1]
  exact h2

/-- The last thing that is written is neither white space nor the start of a line. -/
def EndsInk (m : EM Unit) : Prop := ∀ s, tw m (fun _ _ s' => s'.whitespace = false ∧ s'.indention = false) s

theorem EndsInk.bind {α : Type} {m : EM α} {k : α → EM Unit} (hm : Quiet m) (hk : ∀ a, EndsInk (k a)) : EndsInk (m >>= k) := by
  intro s
  rw [tw_bind]
  exact tw_mono (hm.tw s) fun a _ s' _ => hk a s'

theorem endsInk_setWs : EndsInk (setWs false false) := fun _ => ⟨rfl, rfl⟩

theorem endsInk_writeDouble (v : Text) (ab : Bool) : EndsInk (writeDouble v ab) :=
  .bind (quiet_writeIndicator _ _ _ _) fun _ => .bind (quiet_doubleLoop _ _ _ _) fun _ => .bind (quiet_writeIndicator _ _ _ _) fun _ => endsInk_setWs

theorem endsInk_writeSingle (v : Text) (ab : Bool) : EndsInk (writeSingle v ab) :=
  .bind (quiet_writeIndicator _ _ _ _) fun _ => .bind (quiet_singleLoop _ _ _ _ _) fun _ => .bind (Quiet.whenE quiet_writeIndent) fun _ =>
    .bind (quiet_writeIndicator _ _ _ _) fun _ => endsInk_setWs

theorem endsInk_writePlain (v : Text) (ab : Bool) : EndsInk (writePlain v ab) :=
  .bind Quiet.getE fun _ => .bind (Quiet.whenE (quiet_putC _)) fun _ => .bind (quiet_plainLoop _ _ _ _) fun _ => endsInk_setWs

/-! ### One line -/

/-- There is no line break in the value. -/
def Inline (v : Text) : Prop := ∀ c ∈ v, isBreak c = false

theorem tw_plainInline {v : Text} : ∀ {s : Emitter} {sp : Bool}, Inline v → tw (plainLoop false v sp false) (fun _ t _ => t = v) s := by
  induction v with
  | nil => intro s sp _; exact rfl
  | cons c v ih =>
    intro s sp h
    have hv : Inline v := fun x hx => h x (List.mem_cons_of_mem _ hx)
    unfold plainLoop
    rw [tw_ite]
    split
    · rw [tw_bind, tw_getE]
      simp only [Bool.false_and, Bool.false_eq_true, if_false]
      rw [tw_bind, tw_putC]
      exact tw_mono (ih hv) fun _ t _ h => by rw [h]; rfl
    · rw [tw_ite, if_neg (by rw [h c List.mem_cons_self]; exact Bool.false_ne_true), tw_bind, tw_whenE, if_neg Bool.false_ne_true, tw_bind, tw_putC, tw_bind, tw_modE]
      exact tw_mono (ih hv) fun _ t _ h => by rw [h]; rfl

theorem tw_writePlainInline {v : Text} {s : Emitter} (hne : v ≠ []) (h : Inline v) : tw (writePlain v false) (fun _ t _ => t = lead s ++ v) s := by
  unfold writePlain
  rw [tw_bind, tw_getE, tw_bind, tw_whenE]
  have hv : v.isEmpty = false := by cases v with | nil => exact absurd rfl hne | cons _ _ => rfl
  rw [hv]
  unfold lead
  cases s.whitespace with
  | true =>
    simp only [Bool.not_true, Bool.false_and, Bool.false_eq_true, if_false, if_true]
    rw [tw_bind]
    refine tw_mono (tw_plainInline h) fun _ t _ e => ?_
    rw [tw_setWs, e]; simp
  | false =>
    simp only [Bool.not_false, Bool.true_and, Bool.true_or, if_true, Bool.false_eq_true, if_false]
    rw [tw_putC, tw_bind]
    refine tw_mono (tw_plainInline h) fun _ t _ e => ?_
    rw [tw_setWs, e]; simp

/-- A character between single quotes. -/
def singlePiece (c : Nat) : Text := if c = 39 then [39, 39] else [c]

theorem tw_singleInline {v : Text} : ∀ {s : Emitter} {fi sp : Bool}, Inline v → tw (singleLoop false v fi sp false) (fun b t _ => b = false ∧ t = v.flatMap singlePiece) s := by
  induction v with
  | nil => intro s fi sp _; exact ⟨rfl, rfl⟩
  | cons c v ih =>
    intro s fi sp h
    have hv : Inline v := fun x hx => h x (List.mem_cons_of_mem _ hx)
    unfold singleLoop
    rw [tw_ite]
    split
    · rename_i hc
      rw [tw_bind, tw_getE]
      simp only [Bool.false_and, Bool.false_eq_true, if_false]
      rw [tw_bind, tw_putC]
      refine tw_mono (ih hv) fun _ t _ h => ⟨h.1, ?_⟩
      have : c ≠ 39 := by rintro rfl; exact absurd hc (by decide)
      rw [h.2, List.flatMap_cons, singlePiece, if_neg this]; rfl
    · rw [tw_ite, if_neg (by rw [h c List.mem_cons_self]; exact Bool.false_ne_true), tw_bind, tw_whenE, if_neg Bool.false_ne_true, tw_bind, tw_whenE]
      by_cases hc : c = 39
      · subst hc
        simp only [beq_self_eq_true, if_true]
        rw [tw_putC, tw_bind, tw_putC, tw_bind, tw_modE]
        refine tw_mono (ih hv) fun _ t _ h => ⟨h.1, ?_⟩
        rw [h.2]; rfl
      · rw [if_neg (by simpa using hc), tw_bind, tw_putC, tw_bind, tw_modE]
        refine tw_mono (ih hv) fun _ t _ h => ⟨h.1, ?_⟩
        rw [h.2, List.flatMap_cons, singlePiece, if_neg hc]; rfl

theorem lead_indicator (s : Emitter) : (if (true && !s.whitespace) = true then [0x20] else []) = lead s := by
  unfold lead
  cases s.whitespace <;> rfl

theorem tw_writeSingleInline {v : Text} {s : Emitter} (h : Inline v) :
    tw (writeSingle v false) (fun _ t _ => t = lead s ++ 39 :: (v.flatMap singlePiece ++ [39])) s := by
  unfold writeSingle
  rw [tw_bind, tw_writeIndicator, tw_bind]
  refine tw_mono (tw_singleInline h) ?_
  rintro _ t s' ⟨rfl, rfl⟩
  rw [tw_bind, tw_whenE, if_neg Bool.false_ne_true, tw_bind, tw_writeIndicator, tw_setWs, lead_indicator]
  simp

/-- A character between double quotes. -/
def doublePiece (u : Bool) (c : Nat) : Text := if mustEscape u c = true then 92 :: escapeText c else [c]

theorem tw_doubleInline {v : Text} : ∀ {s : Emitter} {fi sp : Bool}, tw (doubleLoop false v fi sp) (fun _ t _ => t = v.flatMap (doublePiece s.unicode)) s := by
  induction v with
  | nil => intro s fi sp; exact rfl
  | cons c v ih =>
    intro s fi sp
    unfold doubleLoop
    rw [tw_bind, tw_getE, tw_ite]
    split
    · rename_i hc
      rw [tw_bind, tw_putC, tw_bind, tw_writeAll]
      refine tw_mono ih fun _ t _ h => ?_
      rw [h, List.flatMap_cons, doublePiece, if_pos hc]; simp
    · rename_i hc
      rw [tw_ite]
      split
      · simp only [Bool.false_and, Bool.false_eq_true, if_false]
        rw [tw_bind, tw_putC]
        refine tw_mono ih fun _ t _ h => ?_
        rw [h, List.flatMap_cons, doublePiece, if_neg hc]; simp
      · rw [tw_bind, tw_putC]
        refine tw_mono ih fun _ t _ h => ?_
        rw [h, List.flatMap_cons, doublePiece, if_neg hc]; simp

theorem tw_writeDoubleInline {v : Text} {s : Emitter} :
    tw (writeDouble v false) (fun _ t _ => t = lead s ++ 34 :: (v.flatMap (doublePiece s.unicode) ++ [34])) s := by
  unfold writeDouble
  rw [tw_bind, tw_writeIndicator, tw_bind]
  refine tw_mono tw_doubleInline ?_
  rintro _ t s' rfl
  rw [tw_bind, tw_writeIndicator, tw_setWs, lead_indicator]
  simp

/-! ### Lengths -/

theorem breakChar_eq (c : Nat) : isBreakChar c = isBreak c := by
  cases h : isBreak c with
  | true =>
    unfold isBreak at h
    simp only [Bool.or_eq_true, beq_iff_eq] at h
    rcases h with (((rfl | rfl) | rfl) | rfl) | rfl <;> rfl
  | false =>
    unfold isBreak at h
    simp only [Bool.or_eq_false_iff, beq_eq_false_iff_ne] at h
    unfold isBreakChar
    simp only [List.contains_eq_mem, List.mem_cons, List.not_mem_nil, or_false, decide_eq_false_iff_not]
    omega

theorem NoBreaks.of_inline {v : Text} (h : Inline v) : NoBreaks v := fun c hc => by rw [breakChar_eq]; exact h c hc

theorem noBreaks_flatMap {f : Nat → Text} {v : Text} (h : ∀ c ∈ v, NoBreaks (f c)) : NoBreaks (v.flatMap f) := by
  intro c hc
  obtain ⟨x, h1, h2⟩ := List.mem_flatMap.mp hc
  exact h x h1 c h2

theorem length_flatMap_le {f : Nat → Text} {v : Text} {n : Nat} (h : ∀ c ∈ v, (f c).length ≤ n * (utf8 c).length) : (v.flatMap f).length ≤ n * byteLen v := by
  induction v with
  | nil => exact Nat.zero_le _
  | cons c v ih =>
    have h1 := h c List.mem_cons_self
    have h2 := ih fun x hx => h x (List.mem_cons_of_mem _ hx)
    have e : byteLen (c :: v) = (utf8 c).length + byteLen v := by unfold byteLen utf8s; simp
    rw [List.flatMap_cons, List.length_append, e, Nat.mul_add]
    omega

theorem utf8_length_two {c : Nat} (h : 0x80 ≤ c) : 2 ≤ (utf8 c).length := by
  unfold utf8
  rw [if_neg (by omega)]
  split
  · simp
  · split <;> simp

theorem utf8_length_four {c : Nat} (h : 0x10000 ≤ c) : 4 ≤ (utf8 c).length := by
  unfold utf8
  rw [if_neg (by omega), if_neg (by omega), if_neg (by omega)]
  simp

theorem hexChar_break (d : Nat) (h : d < 16) : isBreakChar (hexChar d) = false := by
  have : ∀ d < 16, isBreakChar (hexChar d) = false := by decide
  exact this d h

theorem noBreaks_hexDigits (v n : Nat) : NoBreaks (hexDigits v n) := by
  induction n with
  | zero => intro c hc; cases hc
  | succ n ih =>
    intro c hc
    unfold hexDigits at hc
    rcases List.mem_cons.mp hc with rfl | hc
    · refine hexChar_break _ ?_
      have := Nat.and_le_right (n := v >>> (4 * n)) (m := 0x0F)
      omega
    · exact ih c hc

theorem escapeText_forms (c : Nat) : (∃ d, escapeText c = [d] ∧ isBreakChar d = false) ∨ escapeText c = 120 :: hexDigits c 2 ∨
    (0xFF < c ∧ escapeText c = 117 :: hexDigits c 4) ∨ (0xFFFF < c ∧ escapeText c = 85 :: hexDigits c 8) := by
  unfold escapeText
  simp only [beq_iff_eq]
  by_cases h0 : c = 0; · rw [if_pos h0]; exact .inl ⟨_, rfl, by decide⟩
  rw [if_neg h0]
  by_cases h0 : c = 7; · rw [if_pos h0]; exact .inl ⟨_, rfl, by decide⟩
  rw [if_neg h0]
  by_cases h0 : c = 8; · rw [if_pos h0]; exact .inl ⟨_, rfl, by decide⟩
  rw [if_neg h0]
  by_cases h0 : c = 9; · rw [if_pos h0]; exact .inl ⟨_, rfl, by decide⟩
  rw [if_neg h0]
  by_cases h0 : c = 10; · rw [if_pos h0]; exact .inl ⟨_, rfl, by decide⟩
  rw [if_neg h0]
  by_cases h0 : c = 11; · rw [if_pos h0]; exact .inl ⟨_, rfl, by decide⟩
  rw [if_neg h0]
  by_cases h0 : c = 12; · rw [if_pos h0]; exact .inl ⟨_, rfl, by decide⟩
  rw [if_neg h0]
  by_cases h0 : c = 13; · rw [if_pos h0]; exact .inl ⟨_, rfl, by decide⟩
  rw [if_neg h0]
  by_cases h0 : c = 27; · rw [if_pos h0]; exact .inl ⟨_, rfl, by decide⟩
  rw [if_neg h0]
  by_cases h0 : c = 34; · rw [if_pos h0]; exact .inl ⟨_, rfl, by decide⟩
  rw [if_neg h0]
  by_cases h0 : c = 92; · rw [if_pos h0]; exact .inl ⟨_, rfl, by decide⟩
  rw [if_neg h0]
  by_cases h0 : c = 133; · rw [if_pos h0]; exact .inl ⟨_, rfl, by decide⟩
  rw [if_neg h0]
  by_cases h0 : c = 160; · rw [if_pos h0]; exact .inl ⟨_, rfl, by decide⟩
  rw [if_neg h0]
  by_cases h0 : c = 8232; · rw [if_pos h0]; exact .inl ⟨_, rfl, by decide⟩
  rw [if_neg h0]
  by_cases h0 : c = 8233; · rw [if_pos h0]; exact .inl ⟨_, rfl, by decide⟩
  rw [if_neg h0]
  by_cases h0 : c ≤ 255; · rw [if_pos h0]; exact .inr (.inl rfl)
  rw [if_neg h0]
  by_cases h1 : c ≤ 65535; · rw [if_pos h1]; exact .inr (.inr (.inl ⟨by omega, rfl⟩))
  rw [if_neg h1]
  exact .inr (.inr (.inr ⟨by omega, rfl⟩))

theorem noBreaks_escapeText (c : Nat) : NoBreaks (escapeText c) := by
  have h2 : ∀ d n, isBreakChar d = false → NoBreaks (d :: hexDigits c n) := by
    intro d n hd x hx
    rcases List.mem_cons.mp hx with rfl | hx
    · exact hd
    · exact noBreaks_hexDigits _ _ x hx
  rcases escapeText_forms c with ⟨d, e, hd⟩ | e | ⟨_, e⟩ | ⟨_, e⟩ <;> rw [e]
  · intro x hx
    rw [List.mem_singleton.mp hx]; exact hd
  all_goals exact h2 _ _ (by decide)

theorem length_escapeText (c : Nat) : (escapeText c).length + 1 ≤ 4 * (utf8 c).length := by
  have h0 := utf8_length_pos c
  rcases escapeText_forms c with ⟨d, e, hd⟩ | e | ⟨h, e⟩ | ⟨h, e⟩ <;> rw [e, List.length_cons]
  · simp only [List.length_nil]; omega
  · rw [hexDigits_length]; omega
  · have := utf8_length_two (c := c) (by omega)
    rw [hexDigits_length]; omega
  · have := utf8_length_four (c := c) (by omega)
    rw [hexDigits_length]; omega

theorem length_doublePiece (u : Bool) (c : Nat) : (doublePiece u c).length ≤ 4 * (utf8 c).length := by
  unfold doublePiece
  split
  · exact length_escapeText c
  · have h0 := utf8_length_pos c
    simp only [List.length_cons, List.length_nil]; omega

theorem noBreaks_doublePiece (u : Bool) (c : Nat) : NoBreaks (doublePiece u c) := by
  unfold doublePiece
  split
  · intro x hx
    rcases List.mem_cons.mp hx with rfl | hx
    · decide
    · exact noBreaks_escapeText c x hx
  · rename_i h
    intro x hx
    rw [List.mem_singleton.mp hx, breakChar_eq]
    unfold mustEscape at h
    simp only [Bool.or_eq_true, not_or, Bool.not_eq_true] at h
    exact h.1.1.2

theorem length_singlePiece (c : Nat) : (singlePiece c).length ≤ 4 * (utf8 c).length := by
  have h0 := utf8_length_pos c
  unfold singlePiece
  split <;> simp only [List.length_cons, List.length_nil] <;> omega

theorem noBreaks_singlePiece {c : Nat} (h : isBreak c = false) : NoBreaks (singlePiece c) := by
  unfold singlePiece
  split
  · intro x hx; simp at hx; subst hx; decide
  · intro x hx; rw [List.mem_singleton.mp hx, breakChar_eq]; exact h

theorem length_le_byteLen (v : Text) : v.length ≤ byteLen v := by
  induction v with
  | nil => exact Nat.zero_le _
  | cons c v ih =>
    have e : byteLen (c :: v) = (utf8 c).length + byteLen v := by unfold byteLen utf8s; simp
    have := utf8_length_pos c
    rw [e, List.length_cons]; omega

theorem strLen_cons (c : Nat) (v : Text) : strLen (c :: v) = (octets c).length + strLen v := by unfold strLen textBytes; simp

theorem length_le_strLen (v : Text) : v.length ≤ strLen v := by
  induction v with
  | nil => exact Nat.zero_le _
  | cons c v ih =>
    have := List.length_pos_iff.mpr (octets_ne_nil c)
    rw [strLen_cons, List.length_cons]; omega

theorem length_tagPiece (c : Nat) : (tagPiece c).length ≤ 3 * (octets c).length := by
  unfold tagPiece
  split
  · have := List.length_pos_iff.mpr (octets_ne_nil c)
    simp only [List.length_cons, List.length_nil]; omega
  · generalize octets c = bs
    induction bs with
    | nil => simp
    | cons b bs ih =>
      rw [List.flatMap_cons, List.length_append, List.length_cons, Nat.mul_add]
      unfold pct
      simp only [List.length_cons, List.length_nil]
      unfold pct at ih
      omega

theorem length_tagText (v : Text) : (tagText v).length ≤ 3 * strLen v := by
  induction v with
  | nil => exact Nat.zero_le _
  | cons c v ih =>
    have h1 := length_tagPiece c
    rw [tagText_cons, List.length_append, strLen_cons]
    omega

theorem noBreaks_alpha {c : Nat} (h : isAlpha c = true) : isBreakChar c = false := by
  rw [breakChar_eq]
  have h' := h
  unfold isAlpha at h
  simp only [Bool.or_eq_true, Bool.and_eq_true, decide_eq_true_eq, beq_iff_eq] at h
  unfold isBreak
  simp only [Bool.or_eq_false_iff, beq_eq_false_iff_ne]
  omega

theorem noBreaks_tagChar {c : Nat} (h : tagChar c = true) : isBreakChar c = false := by
  cases hb : isBreakChar c with
  | false => rfl
  | true =>
    exfalso
    unfold isBreakChar at hb
    simp only [List.contains_eq_mem, decide_eq_true_eq] at hb
    simp only [List.mem_cons, List.not_mem_nil, or_false] at hb
    rcases hb with rfl | rfl | rfl | rfl | rfl <;> exact absurd h (by decide)

theorem noBreaks_tagPiece (c : Nat) : NoBreaks (tagPiece c) := by
  unfold tagPiece
  split
  · rename_i h
    intro x hx; rw [List.mem_singleton.mp hx]; exact noBreaks_tagChar h
  · intro x hx
    obtain ⟨b, _, hb⟩ := List.mem_flatMap.mp hx
    unfold pct at hb
    simp only [List.mem_cons, List.not_mem_nil, or_false] at hb
    rcases hb with rfl | rfl | rfl
    · decide
    · refine hexChar_break _ ?_
      have := b.toNat_lt
      rw [Nat.shiftRight_eq_div_pow]; omega
    · refine hexChar_break _ ?_
      have := Nat.and_le_right (n := b.toNat) (m := 0x0F)
      omega

theorem noBreaks_tagText (v : Text) : NoBreaks (tagText v) := noBreaks_flatMap fun c _ => noBreaks_tagPiece c

end LibYaml
