import Verif.Proofs.QuotedWrite
import Verif.Proofs.Analysis
import Verif.Proofs.PlainScan

/-! What the analysis of a plain scalar establishes and what its writer writes. -/

namespace LibYaml

/-- Text that can be a plain scalar, after a blank or not; the conditions on its first character are not included. -/
def PlainOk (flow : Bool) : Bool → Text → Prop
  | k, [] => k = false
  | k, c :: cs => isPrintable c = true ∧ isBreak c = false ∧ (k = true → c ≠ 35) ∧
      (flow = true → isFlowIndicator c = false ∧ c ≠ 58) ∧ (c = 58 → isBlankz (nextC cs) = false) ∧ PlainOk flow (isSpace c) cs

/-- How a plain scalar begins. -/
structure PlainFirst (flow : Bool) (c : Nat) (cs : Text) : Prop where
  space : isSpace c = false
  start : startIndicator c = false
  special : c = 63 ∨ c = 58 ∨ c = 45 → isBlankz (nextC cs) = false
  flow : flow = true → c ≠ 63 ∧ c ≠ 58

theorem isBlankz_of_plain {c : Nat} (hp : isPrintable c = true) (hb : isBreak c = false) : isBlankz c = isSpace c := by
  obtain ⟨p1, p2, _⟩ := printable_facts hp
  unfold isBlankz isBlank isBreakz
  rw [p1, p2, hb]; simp

theorem indicator_flow {c : Nat} (h : innerIndicator c = false) : isFlowIndicator c = false := by
  cases hf : isFlowIndicator c with
  | false => rfl
  | true =>
    unfold isFlowIndicator at hf
    simp only [Bool.or_eq_true, beq_iff_eq] at hf
    rcases hf with (((hf | hf) | hf) | hf) | hf <;> subst hf <;> exact absurd h (by decide)

theorem start_flow {c : Nat} (h : startIndicator c = false) : isFlowIndicator c = false ∧ c ≠ 35 := by
  refine ⟨?_, by rintro rfl; exact absurd h (by decide)⟩
  cases hf : isFlowIndicator c with
  | false => rfl
  | true =>
    unfold isFlowIndicator at hf
    simp only [Bool.or_eq_true, beq_iff_eq] at hf
    rcases hf with (((hf | hf) | hf) | hf) | hf <;> subst hf <;> exact absurd h (by decide)

theorem flagLoop_plain {u flow : Bool} {cs : Text} {f : Flags} (h1 : (flagLoop u cs false f).specialCharacters = false)
    (h2 : (flagLoop u cs false f).lineBreaks = false) (h3 : (flagLoop u cs false f).trailingSpace = false)
    (h4 : (if flow = true then (flagLoop u cs false f).flowIndicators else (flagLoop u cs false f).blockIndicators) = false)
    (hne : cs = [] → f.precededByWhitespace = false) : PlainOk flow f.precededByWhitespace cs := by
  induction cs generalizing f with
  | nil => exact hne rfl
  | cons c cs ih =>
    have hpr := (flagLoop_special h1 c List.mem_cons_self).1
    have hbr := flagLoop_breaks h2 c List.mem_cons_self
    have hbz := isBlankz_of_plain hpr hbr
    rw [flagLoop_cons] at h1 h2 h3 h4
    have hle := flagLoop_le u cs false (flagStep u c cs false f)
    have k3 := notTrue_le hle.ts h3
    rw [flagStep_ts, Bool.or_eq_false_iff, Bool.and_eq_false_iff] at k3
    have rec1 := ih h1 h2 h3 h4 (by
      intro h
      subst h
      rw [flagStep_pw, hbz]
      simpa using k3.2)
    rw [flagStep_pw, hbz] at rec1
    have ind : (f.precededByWhitespace = true → c ≠ 35) ∧ (flow = true → isFlowIndicator c = false ∧ c ≠ 58) ∧
        (c = 58 → isBlankz (nextC cs) = false) := by
      cases flow with
      | true =>
        simp only [if_true] at h4
        have k4 := notTrue_le hle.flow h4
        rw [flagStep_flow, Bool.or_eq_false_iff] at k4
        have k5 := k4.2
        simp only [Bool.false_eq_true, if_false, Bool.or_eq_false_iff] at k5
        obtain ⟨⟨a, b⟩, d⟩ := k5
        have hc : c ≠ 58 := by simpa using b
        refine ⟨fun hp => ?_, fun _ => ⟨indicator_flow a, hc⟩, fun h => absurd h hc⟩
        rw [hp] at d
        simpa using d
      | false =>
        simp only [Bool.false_eq_true, if_false] at h4
        have k4 := notTrue_le hle.block h4
        rw [flagStep_block, Bool.or_eq_false_iff] at k4
        have k5 := k4.2
        simp only [Bool.false_eq_true, if_false, Bool.or_eq_false_iff] at k5
        obtain ⟨a, d⟩ := k5
        refine ⟨fun hp => ?_, (fun h => by cases h), fun h => ?_⟩
        · rw [hp] at d; simpa using d
        · subst h; simpa using a
    exact ⟨hpr, hbr, ind.1, ind.2.1, ind.2.2, rec1⟩

/-- What is known when the plain style is allowed. -/
theorem plain_allowed {u flow : Bool} {c : Nat} {cs : Text}
    (h : (if flow = true then (analyzeScalarData u (c :: cs)).flowPlainAllowed else (analyzeScalarData u (c :: cs)).blockPlainAllowed) = true) :
    PlainFirst flow c cs ∧ PlainOk flow false (c :: cs) ∧ startsDocument (c :: cs) = false := by
  have e : analyzeScalarData u (c :: cs) = scalarData (c :: cs) (scalarFlags u (c :: cs)) := rfl
  rw [e] at h
  unfold scalarData at h
  dsimp only at h
  have hall : (scalarFlags u (c :: cs)).leadingSpace = false ∧ (scalarFlags u (c :: cs)).trailingSpace = false ∧
      (scalarFlags u (c :: cs)).specialCharacters = false ∧ (scalarFlags u (c :: cs)).lineBreaks = false ∧
      (if flow = true then (scalarFlags u (c :: cs)).flowIndicators else (scalarFlags u (c :: cs)).blockIndicators) = false := by
    cases flow with
    | true =>
      simp only [if_true, Bool.not_eq_true', Bool.or_eq_false_iff] at h ⊢
      exact ⟨h.1.1.1.1.1.1.1.1, h.1.1.1.1.1.1.2, h.1.1.2, h.1.2, h.2⟩
    | false =>
      simp only [Bool.false_eq_true, if_false, Bool.not_eq_true', Bool.or_eq_false_iff] at h ⊢
      exact ⟨h.1.1.1.1.1.1.1.1, h.1.1.1.1.1.1.2, h.1.1.2, h.1.2, h.2⟩
  obtain ⟨a1, a2, a3, a4, a5⟩ := hall
  unfold scalarFlags at a1 a2 a3 a4 a5
  have hpr := (flagLoop_special a3 c List.mem_cons_self).1
  have hbr := flagLoop_breaks a4 c List.mem_cons_self
  have hbz := isBlankz_of_plain hpr hbr
  rw [flagLoop_cons] at a1 a2 a3 a4 a5
  generalize hg : ({ blockIndicators := startsDocument (c :: cs), flowIndicators := startsDocument (c :: cs), precededByWhitespace := true } : Flags) = f0 at a1 a2 a3 a4 a5
  have hle := flagLoop_le u cs false (flagStep u c cs true f0)
  have k1 := notTrue_le hle.ls a1
  rw [flagStep_ls, Bool.or_eq_false_iff] at k1
  have hsp : isSpace c = false := by simpa using k1.2
  have rec1 := flagLoop_plain (flow := flow) a3 a4 a2 a5 (by
    intro h; rw [flagStep_pw, hbz, hsp])
  rw [flagStep_pw, hbz] at rec1
  have ind : startsDocument (c :: cs) = false ∧ startIndicator c = false ∧ (c = 63 ∨ c = 58 ∨ c = 45 → isBlankz (nextC cs) = false) ∧
      (flow = true → c ≠ 63 ∧ c ≠ 58) := by
    cases flow with
    | true =>
      simp only [if_true] at a5
      have k4 := notTrue_le hle.flow a5
      rw [flagStep_flow, Bool.or_eq_false_iff] at k4
      have k5 := k4.2
      simp only [if_true, Bool.or_eq_false_iff] at k5
      obtain ⟨⟨⟨b1, b2⟩, b3⟩, b4⟩ := k5
      have n1 : c ≠ 63 := by simpa using b2
      have n2 : c ≠ 58 := by simpa using b3
      refine ⟨by rw [← hg] at k4; exact k4.1, b1, ?_, fun _ => ⟨n1, n2⟩⟩
      rintro (h | h | h)
      · exact absurd h n1
      · exact absurd h n2
      · subst h; simpa using b4
    | false =>
      simp only [Bool.false_eq_true, if_false] at a5
      have k4 := notTrue_le hle.block a5
      rw [flagStep_block, Bool.or_eq_false_iff] at k4
      have k5 := k4.2
      simp only [if_true, Bool.or_eq_false_iff] at k5
      obtain ⟨⟨b1, b2⟩, b4⟩ := k5
      refine ⟨by rw [← hg] at k4; exact k4.1, b1, ?_, fun h => by cases h⟩
      rintro (h | h | h)
      · subst h; simpa using b2
      · subst h; simpa using b2
      · subst h; simpa using b4
  obtain ⟨d1, d2, d3, d4⟩ := ind
  refine ⟨⟨hsp, d2, d3, d4⟩, ⟨hpr, hbr, (fun h => by cases h), (fun h => ⟨(start_flow d2).1, (d4 h).2⟩), (fun h => d3 (.inr (.inl h))), rec1⟩, d1⟩

/-- What the loop for plain scalars writes. -/
theorem tw_plainLoop {ab flow : Bool} {indent : Int} {lb : Break} (v : Text) (k : Nat) (s : Emitter) (hl : s.lineBreak = some lb)
    (hi : 1 ≤ s.indentCol) (hi2 : indent ≤ s.indentCol) (hok : PlainOk flow (k != 0) v) (hk2 : k = 2 → isSpace (nextC v) = false)
    (hin : (k = 0 ∧ isSpace (nextC v) = false) ∨ MidLine s (k != 0)) :
    tw (plainLoop ab v (k != 0) false) (fun _ t _ => ∃ ps, PlainPieces flow indent k ps ∧ pText lb ps = t ∧ pValue ps = v ∧
      (∀ d cs, v = d :: cs → isSpace d = false → ∃ qs, ps = .lit d :: qs)) s := by
  induction v generalizing s k with
  | nil =>
    unfold plainLoop
    rw [tw_pure]
    exact ⟨[], by have : k = 0 := by simpa [PlainOk] using hok
                  exact this, rfl, rfl, fun _ _ h => by cases h⟩
  | cons c cs ih =>
    obtain ⟨o1, o2, o3, o4, o5, o6⟩ := hok
    unfold plainLoop
    rw [tw_ite]
    cases hs : isSpace c with
    | true =>
      have hc : c = 0x20 := by simpa [isSpace] using hs
      subst hc
      rw [hs] at o6
      rw [if_pos rfl, tw_bind, tw_getE, tw_bind, tw_ite]
      have hk : k ≠ 2 := fun h => by have := hk2 h; simp only [nextC] at this; rw [hs] at this; cases this
      have hin : MidLine s (k != 0) := by
        rcases hin with ⟨_, h⟩ | h
        · simp only [nextC] at h; rw [hs] at h; cases h
        · exact h
      by_cases hfold : (ab && !(k != 0) && s.overWidth && !isSpace (nextC cs)) = true
      · rw [if_pos hfold]
        simp only [Bool.and_eq_true, Bool.not_eq_true'] at hfold
        have hk0 : k = 0 := by simpa using hfold.1.1.2
        subst hk0
        rw [tw_writeIndent hin.needBreak]
        refine tw_mono (ih (k := 2) (s := { s with column := s.indentCol, line := s.line + 1, whitespace := true, indention := true }) hl hi hi2 o6
          (fun _ => hfold.2) (.inr (.inr (by show s.indentCol ≤ s.indentCol; omega)))) ?_
        rintro _ t s' ⟨ps, h1, h2, h3, _⟩
        refine ⟨.gap [0xA] s.indentCol :: ps, ⟨⟨rfl, rfl, hi, hi2⟩, h1⟩, ?_, ?_, fun d cs' h hd => ?_⟩
        · simp only [pText, gap_text, ← h2, hl]; simp
        · simp only [pValue, Piece.value, foldBreaks_one, h3]; simp
        · cases h; rw [hs] at hd; cases hd
      · rw [if_neg hfold, tw_putC]
        refine tw_mono (ih (k := 1) (s := { s with column := s.column + 1 }) hl hi hi2 o6 (fun h => by cases h) (.inr ?_)) ?_
        · rcases hin with h | h
          · exact .inl h
          · refine .inr ?_
            show s.indentCol ≤ s.column + 1
            split at h <;> omega
        · rintro _ t s' ⟨ps, h1, h2, h3, _⟩
          refine ⟨.sp :: ps, ⟨hk, h1⟩, ?_, ?_, fun d cs' h hd => ?_⟩
          · simp only [pText, Piece.text, h2]; rfl
          · simp only [pValue, Piece.value, h3]; rfl
          · cases h; rw [hs] at hd; cases hd
    | false =>
      rw [hs] at o6
      rw [if_neg (by decide), o2, tw_ite, if_neg (by decide), tw_bind, tw_whenE, if_neg (by decide), tw_bind, tw_putC, tw_bind, tw_modE]
      refine tw_mono (ih (k := 0) (s := { s with column := s.column + 1, indention := false }) hl hi hi2 o6 (fun h => by cases h)
        (.inr (.inl rfl))) ?_
      rintro _ t s' ⟨ps, h1, h2, h3, h4⟩
      have hbz := isBlankz_of_plain o1 o2
      refine ⟨.lit c :: ps, ⟨⟨by rw [hbz, hs], (fun h => o3 (by simpa using h)), o4, fun h => ?_⟩, h1⟩, ?_, ?_, fun d cs' h _ => ?_⟩
      · have h5 := o5 h
        cases cs with
        | nil => exact absurd h5 (by decide)
        | cons d cs' =>
          have hd : isSpace d = false := by
            obtain ⟨q1, q2, _⟩ := o6
            rw [← isBlankz_of_plain q1 q2]; exact h5
          obtain ⟨qs, rfl⟩ := h4 d cs' rfl hd
          exact ⟨d, qs, rfl⟩
      · simp only [pText, Piece.text, h2]; rfl
      · simp only [pValue, Piece.value, h3]; rfl
      · cases h; exact ⟨ps, rfl⟩

/-- What is written for a plain scalar. -/
theorem tw_writePlain {ab flow : Bool} {indent : Int} {lb : Break} {c : Nat} {cs : Text} {s : Emitter} (hl : s.lineBreak = some lb)
    (hi : 1 ≤ s.indentCol) (hi2 : indent ≤ s.indentCol) (hf : PlainFirst flow c cs) (hok : PlainOk flow false (c :: cs)) :
    tw (writePlain (c :: cs) ab) (fun _ t _ => ∃ ps, PlainPieces flow indent 0 (.lit c :: ps) ∧ pValue (.lit c :: ps) = c :: cs ∧
      t = lead s ++ pText lb (.lit c :: ps)) s := by
  unfold writePlain
  rw [tw_bind, tw_getE, tw_bind, tw_whenE]
  have fin : ∀ s' : Emitter, s'.lineBreak = some lb → s'.indent = s.indent → tw (do plainLoop ab (c :: cs) false false; setWs false false)
      (fun _ t _ => ∃ ps, PlainPieces flow indent 0 (.lit c :: ps) ∧ pValue (.lit c :: ps) = c :: cs ∧ t = pText lb (.lit c :: ps)) s' := by
    intro s' h1 h2
    have e : s'.indentCol = s.indentCol := by unfold Emitter.indentCol; rw [h2]
    rw [tw_bind]
    refine tw_mono (tw_plainLoop (ab := ab) (flow := flow) (indent := indent) (c :: cs) 0 s' h1 (by rw [e]; exact hi) (by rw [e]; exact hi2)
      hok (fun h => by cases h) (.inl ⟨rfl, hf.space⟩)) ?_
    rintro _ t s2 ⟨ps, p1, p2, p3, p4⟩
    obtain ⟨qs, rfl⟩ := p4 c cs rfl hf.space
    rw [tw_setWs]
    exact ⟨qs, p1, p3, by rw [← p2]; simp⟩
  cases hw : s.whitespace with
  | true =>
    rw [if_neg (by simp)]
    refine tw_mono (fin s hl rfl) ?_
    rintro _ t s2 ⟨ps, p1, p2, p3⟩
    exact ⟨ps, p1, p2, by unfold lead; rw [hw, p3]; simp⟩
  | false =>
    rw [if_pos (by simp), tw_putC]
    refine tw_mono (fin _ hl rfl) ?_
    rintro _ t s2 ⟨ps, p1, p2, p3⟩
    exact ⟨ps, p1, p2, by unfold lead; rw [hw, p3]; simp⟩

end LibYaml
