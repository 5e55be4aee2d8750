import Verif.Model.Emitter

/-! What the analysis of a scalar establishes about its text. -/

namespace LibYaml

/-- No space next to a line break. -/
def NoAdj : Text → Prop
  | [] => True
  | c :: cs => ¬ (isSpace c = true ∧ isBreak (nextC cs) = true) ∧ ¬ (isBreak c = true ∧ isSpace (nextC cs) = true) ∧ NoAdj cs

/-- The flags that are never taken back. -/
structure FlagsLe (f g : Flags) : Prop where
  block : f.blockIndicators = true → g.blockIndicators = true
  flow : f.flowIndicators = true → g.flowIndicators = true
  breaks : f.lineBreaks = true → g.lineBreaks = true
  special : f.specialCharacters = true → g.specialCharacters = true
  ls : f.leadingSpace = true → g.leadingSpace = true
  lb : f.leadingBreak = true → g.leadingBreak = true
  ts : f.trailingSpace = true → g.trailingSpace = true
  tb : f.trailingBreak = true → g.trailingBreak = true
  bs : f.breakSpace = true → g.breakSpace = true
  sb : f.spaceBreak = true → g.spaceBreak = true

theorem FlagsLe.refl (f : Flags) : FlagsLe f f := ⟨id, id, id, id, id, id, id, id, id, id⟩

theorem FlagsLe.trans {f g h : Flags} (a : FlagsLe f g) (b : FlagsLe g h) : FlagsLe f h :=
  ⟨b.block ∘ a.block, b.flow ∘ a.flow, b.breaks ∘ a.breaks, b.special ∘ a.special, b.ls ∘ a.ls, b.lb ∘ a.lb, b.ts ∘ a.ts, b.tb ∘ a.tb,
    b.bs ∘ a.bs, b.sb ∘ a.sb⟩

/-- One character. -/
def flagStep (unicode : Bool) (c : Nat) (cs : Text) (first : Bool) (f : Flags) : Flags :=
  { flagSpaces c first cs.isEmpty (flagSpecial unicode c (flagIndicators c first (isBlankz (nextC cs)) f)) with precededByWhitespace := isBlankz c }

theorem flagLoop_cons (u : Bool) (c : Nat) (cs : Text) (first : Bool) (f : Flags) :
    flagLoop u (c :: cs) first f = flagLoop u cs false (flagStep u c cs first f) := rfl

section fields
variable (u : Bool) (c : Nat) (cs : Text) (first : Bool) (f : Flags)

theorem flagStep_special : (flagStep u c cs first f).specialCharacters = (f.specialCharacters || (!isPrintable c || (!isAscii c && !u))) := by
  unfold flagStep flagSpaces flagIndicators
  cases first <;> cases isSpace c <;> cases isBreak c <;> rfl

theorem flagStep_breaks : (flagStep u c cs first f).lineBreaks = (f.lineBreaks || isBreak c) := by
  unfold flagStep flagSpaces flagIndicators flagSpecial
  cases first <;> cases isSpace c <;> cases isBreak c <;> rfl

theorem flagStep_bs : (flagStep u c cs first f).breakSpace = (f.breakSpace || (isSpace c && f.previousBreak)) := by
  unfold flagStep flagSpaces flagIndicators flagSpecial
  cases first <;> cases isSpace c <;> cases isBreak c <;> simp

theorem flagStep_sb : (flagStep u c cs first f).spaceBreak = (f.spaceBreak || (!isSpace c && isBreak c && f.previousSpace)) := by
  unfold flagStep flagSpaces flagIndicators flagSpecial
  cases first <;> cases isSpace c <;> cases isBreak c <;> simp

theorem flagStep_ls : (flagStep u c cs first f).leadingSpace = (f.leadingSpace || (isSpace c && first)) := by
  unfold flagStep flagSpaces flagIndicators flagSpecial
  cases first <;> cases isSpace c <;> cases isBreak c <;> simp

theorem flagStep_lb : (flagStep u c cs first f).leadingBreak = (f.leadingBreak || (!isSpace c && isBreak c && first)) := by
  unfold flagStep flagSpaces flagIndicators flagSpecial
  cases first <;> cases isSpace c <;> cases isBreak c <;> simp

theorem flagStep_ts : (flagStep u c cs first f).trailingSpace = (f.trailingSpace || (isSpace c && cs.isEmpty)) := by
  unfold flagStep flagSpaces flagIndicators flagSpecial
  cases first <;> cases isSpace c <;> cases isBreak c <;> simp

theorem flagStep_tb : (flagStep u c cs first f).trailingBreak = (f.trailingBreak || (!isSpace c && isBreak c && cs.isEmpty)) := by
  unfold flagStep flagSpaces flagIndicators flagSpecial
  cases first <;> cases isSpace c <;> cases isBreak c <;> simp

theorem flagStep_ps : (flagStep u c cs first f).previousSpace = isSpace c := by
  unfold flagStep flagSpaces flagIndicators flagSpecial
  cases first <;> cases isSpace c <;> cases isBreak c <;> rfl

theorem flagStep_pb : (flagStep u c cs first f).previousBreak = (!isSpace c && isBreak c) := by
  unfold flagStep flagSpaces flagIndicators flagSpecial
  cases first <;> cases isSpace c <;> cases isBreak c <;> rfl

theorem flagStep_pw : (flagStep u c cs first f).precededByWhitespace = isBlankz c := rfl

theorem flagStep_flow : (flagStep u c cs first f).flowIndicators = (f.flowIndicators ||
    if first = true then startIndicator c || c == c! '?' || c == c! ':' || (c == c! '-' && isBlankz (nextC cs))
    else innerIndicator c || c == c! ':' || (c == c! '#' && f.precededByWhitespace)) := by
  unfold flagStep flagSpaces flagIndicators flagSpecial
  cases first <;> cases isSpace c <;> cases isBreak c <;> rfl

theorem flagStep_block : (flagStep u c cs first f).blockIndicators = (f.blockIndicators ||
    if first = true then startIndicator c || ((c == c! '?' || c == c! ':') && isBlankz (nextC cs)) || (c == c! '-' && isBlankz (nextC cs))
    else (c == c! ':' && isBlankz (nextC cs)) || (c == c! '#' && f.precededByWhitespace)) := by
  unfold flagStep flagSpaces flagIndicators flagSpecial
  cases first <;> cases isSpace c <;> cases isBreak c <;> rfl

end fields

theorem flagStep_le (u : Bool) (c : Nat) (cs : Text) (first : Bool) (f : Flags) : FlagsLe f (flagStep u c cs first f) := by
  constructor <;> intro h
  · rw [flagStep_block, h]; rfl
  · rw [flagStep_flow, h]; rfl
  · rw [flagStep_breaks, h]; rfl
  · rw [flagStep_special, h]; rfl
  · rw [flagStep_ls, h]; rfl
  · rw [flagStep_lb, h]; rfl
  · rw [flagStep_ts, h]; rfl
  · rw [flagStep_tb, h]; rfl
  · rw [flagStep_bs, h]; rfl
  · rw [flagStep_sb, h]; rfl

theorem flagLoop_le (u : Bool) (cs : Text) (first : Bool) (f : Flags) : FlagsLe f (flagLoop u cs first f) := by
  induction cs generalizing first f with
  | nil => exact FlagsLe.refl f
  | cons c cs ih => rw [flagLoop_cons]; exact (flagStep_le u c cs first f).trans (ih _ _)

theorem notTrue_le {a b : Bool} (h : a = true → b = true) (hb : b = false) : a = false := by
  cases a
  · rfl
  · rw [h rfl] at hb; cases hb

/-- Without special characters every character is printable, and ASCII unless Unicode is allowed. -/
theorem flagLoop_special {u : Bool} {cs : Text} {first : Bool} {f : Flags} (h : (flagLoop u cs first f).specialCharacters = false) :
    ∀ c ∈ cs, isPrintable c = true ∧ (isAscii c = true ∨ u = true) := by
  induction cs generalizing first f with
  | nil => intro c hc; cases hc
  | cons d cs ih =>
    intro c hc
    rw [flagLoop_cons] at h
    rcases List.mem_cons.mp hc with rfl | hc
    · have h2 := notTrue_le (flagLoop_le _ _ _ _).special h
      rw [flagStep_special] at h2
      simp only [Bool.or_eq_false_iff, Bool.not_eq_false', Bool.and_eq_false_iff] at h2
      refine ⟨h2.2.1, ?_⟩
      exact h2.2.2
    · exact ih h c hc

theorem flagLoop_breaks {u : Bool} {cs : Text} {first : Bool} {f : Flags} (h : (flagLoop u cs first f).lineBreaks = false) :
    ∀ c ∈ cs, isBreak c = false := by
  induction cs generalizing first f with
  | nil => intro c hc; cases hc
  | cons d cs ih =>
    intro c hc
    rw [flagLoop_cons] at h
    rcases List.mem_cons.mp hc with rfl | hc
    · have h2 := notTrue_le (flagLoop_le _ _ _ _).breaks h
      rw [flagStep_breaks] at h2
      exact (Bool.or_eq_false_iff.mp h2).2
    · exact ih h c hc

theorem not_space_break {c : Nat} (h : isSpace c = true) : isBreak c = false := by
  have : c = 0x20 := by simpa [isSpace] using h
  subst this; rfl

theorem flagLoop_adj {u : Bool} {cs : Text} {first : Bool} {f : Flags} (h1 : (flagLoop u cs first f).breakSpace = false)
    (h2 : (flagLoop u cs first f).spaceBreak = false) :
    (f.previousBreak = true → isSpace (nextC cs) = false) ∧ (f.previousSpace = true → isBreak (nextC cs) = false) ∧ NoAdj cs := by
  induction cs generalizing first f with
  | nil => exact ⟨fun _ => rfl, fun _ => rfl, trivial⟩
  | cons c cs ih =>
    rw [flagLoop_cons] at h1 h2
    obtain ⟨i1, i2, i3⟩ := ih h1 h2
    have k1 := notTrue_le (flagLoop_le _ _ _ _).bs h1
    have k2 := notTrue_le (flagLoop_le _ _ _ _).sb h2
    rw [flagStep_bs, Bool.or_eq_false_iff] at k1
    rw [flagStep_sb, Bool.or_eq_false_iff] at k2
    rw [flagStep_pb] at i1
    rw [flagStep_ps] at i2
    cases hs : isSpace c with
    | true =>
      have hb := not_space_break hs
      rw [hs] at i2 k1
      refine ⟨fun h => ?_, fun _ => hb, ?_, ?_, i3⟩
      · rw [h] at k1; cases k1.2
      · rintro ⟨_, hx⟩; rw [i2 rfl] at hx; cases hx
      · rintro ⟨hx, _⟩; rw [hb] at hx; cases hx
    | false =>
      rw [hs] at i1 k2
      refine ⟨fun _ => hs, fun h => ?_, ?_, ?_, i3⟩
      · rw [h] at k2
        simpa [nextC] using k2.2
      · rintro ⟨hx, _⟩; rw [hs] at hx; cases hx
      · rintro ⟨hb, hx⟩
        rw [hb] at i1
        rw [i1 rfl] at hx; cases hx

/-- What is known when the single quoted style is allowed. -/
theorem single_allowed {u : Bool} {v : Text} (h : (analyzeScalarData u v).singleQuotedAllowed = true) :
    (∀ c ∈ v, isPrintable c = true ∧ (isAscii c = true ∨ u = true)) ∧ NoAdj v := by
  unfold analyzeScalarData at h
  split at h
  · rename_i hv
    have : v = [] := by simpa using hv
    subst this
    exact ⟨(fun c hc => by cases hc), trivial⟩
  · unfold scalarData at h
    simp only [Bool.not_eq_true', Bool.or_eq_false_iff] at h
    exact ⟨flagLoop_special h.2, (flagLoop_adj h.1.1 h.1.2).2.2⟩

end LibYaml
