import Verif.Proofs.QuotedScan
import Verif.Proofs.Emitter

/-!
# What the writers of quoted scalars write

`tw m Q s`: `m` succeeds from `s`, and its result, the characters it writes and the state afterwards satisfy `Q`.
-/

namespace LibYaml

def tw {α : Type} (m : EM α) (Q : α → Text → Emitter → Prop) (s : Emitter) : Prop :=
  match (m s).val with
  | .ok a => Q a (m s).text (m s).st
  | .error _ => False

theorem opsText_append (a b : List (EOp × Emitter)) : opsText (a ++ b) = opsText a ++ opsText b := by
  induction a with
  | nil => rfl
  | cons x a ih =>
    obtain ⟨op, s⟩ := x
    cases op with
    | out w => simp [opsText, ih]
    | alloc => simp [opsText, ih]

section
variable {α β : Type} {s : Emitter}

theorem tw_bind {m : EM α} {k : α → EM β} {Q : β → Text → Emitter → Prop} :
    tw (m >>= k) Q s ↔ tw m (fun a t s' => tw (k a) (fun b u s'' => Q b (t ++ u) s'') s') s := by
  show tw (EM.bind m k) Q s ↔ _
  unfold tw EM.bind
  cases (m s).val with
  | error e => exact Iff.rfl
  | ok a =>
    simp only [Res.text, opsText_append]

theorem tw_pure {a : α} {Q : α → Text → Emitter → Prop} : tw (pure a) Q s ↔ Q a [] s := Iff.rfl
theorem tw_getE {Q : Emitter → Text → Emitter → Prop} : tw getE Q s ↔ Q s [] s := Iff.rfl
theorem tw_modE {f : Emitter → Emitter} {Q : Unit → Text → Emitter → Prop} : tw (modE f) Q s ↔ Q () [] (f s) := Iff.rfl
theorem tw_setWs {a b : Bool} {Q : Unit → Text → Emitter → Prop} :
    tw (setWs a b) Q s ↔ Q () [] { s with whitespace := a, indention := b } := Iff.rfl
theorem tw_outE {t : Text} {Q : Unit → Text → Emitter → Prop} : tw (outE t) Q s ↔ Q () t s := by
  unfold tw outE opE Res.text opsText opsText WOp.text
  simp
theorem tw_whenE {b : Bool} {m : EM Unit} {Q : Unit → Text → Emitter → Prop} :
    tw (whenE b m) Q s ↔ if b = true then tw m Q s else Q () [] s := by
  cases b <;> exact Iff.rfl
theorem tw_ite {c : Prop} [Decidable c] {m n : EM β} {Q : β → Text → Emitter → Prop} :
    tw (if c then m else n) Q s ↔ if c then tw m Q s else tw n Q s := by
  by_cases h : c
  · rw [if_pos h, if_pos h]
  · rw [if_neg h, if_neg h]
theorem tw_mono {m : EM α} {Q Q' : α → Text → Emitter → Prop} (h : tw m Q s) (hQ : ∀ a t s', Q a t s' → Q' a t s') : tw m Q' s := by
  unfold tw at *
  split <;> rename_i heq <;> rw [heq] at h
  · exact hQ _ _ _ h
  · exact h

theorem tw_putC {c : Nat} {Q : Unit → Text → Emitter → Prop} : tw (putC c) Q s ↔ Q () [c] { s with column := s.column + 1 } := by
  unfold putC
  rw [tw_bind, tw_outE, tw_modE, List.append_nil]

theorem tw_putBreak {Q : Unit → Text → Emitter → Prop} :
    tw putBreak Q s ↔ Q () (brkText s.lineBreak) { s with column := 0, line := s.line + 1 } := by
  unfold putBreak
  rw [tw_bind, tw_getE, tw_bind, tw_outE, tw_modE, List.append_nil, List.nil_append]

theorem tw_writeBreak {b : Nat} {lb : Break} (hl : s.lineBreak = some lb) {Q : Unit → Text → Emitter → Prop} :
    tw (writeBreak b) Q s ↔ Q () (brkOut lb b) { s with column := 0, line := s.line + 1 } := by
  unfold writeBreak brkOut
  rw [tw_ite]
  by_cases h : b = 0xA
  · rw [if_pos (by simp [h]), if_pos h, tw_putBreak, hl]
  · rw [if_neg (by simp [h]), if_neg h, tw_bind, tw_outE, tw_modE, List.append_nil]

theorem tw_writeAll {t : Text} {Q : Unit → Text → Emitter → Prop} : tw (writeAll t) Q s ↔ Q () t { s with column := s.column + t.length } := by
  induction t generalizing s Q with
  | nil => exact Iff.rfl
  | cons c t ih =>
    unfold writeAll
    rw [tw_bind, tw_putC, ih]
    have e : s.column + 1 + t.length = s.column + (c :: t).length := by simp only [List.length_cons]; omega
    simp only [e, List.cons_append, List.nil_append]

theorem tw_putSpaces {n : Nat} {Q : Unit → Text → Emitter → Prop} :
    tw (putSpaces n) Q s ↔ Q () (List.replicate n 0x20) { s with column := s.column + n } := by
  induction n generalizing s Q with
  | zero => exact Iff.rfl
  | succ n ih =>
    unfold putSpaces
    rw [tw_bind, tw_putC, ih]
    have e : s.column + 1 + n = s.column + (n + 1) := by omega
    simp only [e, List.cons_append, List.nil_append, List.replicate_succ]

/-- `write_indent` where a line break is needed. -/
theorem tw_writeIndent (hn : s.needBreak = true) {Q : Unit → Text → Emitter → Prop} :
    tw writeIndent Q s ↔ Q () (brkText s.lineBreak ++ List.replicate s.indentCol 0x20)
      { s with column := s.indentCol, line := s.line + 1, whitespace := true, indention := true } := by
  unfold writeIndent
  rw [tw_bind, tw_getE, tw_bind, tw_whenE, hn, if_pos rfl, tw_putBreak, tw_bind, tw_getE, tw_bind, tw_getE, tw_bind, tw_putSpaces, tw_setWs]
  simp only [Emitter.indentCol, Nat.sub_zero, Nat.zero_add, List.nil_append, List.append_nil]

/-- `write_indent` without a line break. -/
theorem tw_writeIndent' (hn : s.needBreak = false) {Q : Unit → Text → Emitter → Prop} :
    tw writeIndent Q s ↔ Q () (List.replicate (s.indentCol - s.column) 0x20)
      { s with column := s.column + (s.indentCol - s.column), whitespace := true, indention := true } := by
  unfold writeIndent
  rw [tw_bind, tw_getE, tw_bind, tw_whenE, hn, if_neg (by decide), tw_bind, tw_getE, tw_bind, tw_getE, tw_bind, tw_putSpaces, tw_setWs]
  simp only [Emitter.indentCol, List.nil_append, List.append_nil]

theorem tw_writeIndicator {t : Text} {nw w i : Bool} {Q : Unit → Text → Emitter → Prop} :
    tw (writeIndicator t nw w i) Q s ↔ Q () ((if (nw && !s.whitespace) = true then [0x20] else []) ++ t)
      { s with column := s.column + (if (nw && !s.whitespace) = true then 1 else 0) + t.length, whitespace := w, indention := s.indention && i } := by
  unfold writeIndicator
  rw [tw_bind, tw_getE, tw_bind, tw_whenE]
  cases h : (nw && !s.whitespace) with
  | true =>
    simp only [if_true]
    rw [tw_putC, tw_bind, tw_writeAll, tw_modE]
    simp
  | false =>
    simp only [Bool.false_eq_true, if_false]
    rw [tw_bind, tw_writeAll, tw_modE]
    simp

end

/-- At a place where the next `write_indent` begins a new line. -/
def MidLine (s : Emitter) (spaces : Bool) : Prop :=
  s.indention = false ∨ (if spaces = true then s.indentCol ≤ s.column else s.indentCol < s.column)

theorem MidLine.needBreak {s : Emitter} (h : MidLine s false) : s.needBreak = true := by
  unfold Emitter.needBreak
  rcases h with h | h
  · simp [h]
  · simp only [Bool.false_eq_true, if_false] at h
    simp [h]

theorem printable_facts {c : Nat} (h : isPrintable c = true) : isTab c = false ∧ isZ c = false ∧ (isBreak c = true → keptBreak c) := by
  unfold isPrintable at h
  simp only [Bool.or_eq_true, Bool.and_eq_true, beq_iff_eq, decide_eq_true_eq] at h
  unfold isTab isZ isBreak keptBreak
  refine ⟨?_, ?_, ?_⟩
  · simp; omega
  · simp; omega
  · simp; omega

theorem notSpecial_lit {u : Bool} {c : Nat} (h : mustEscape u c = false) (hs : isSpace c = false) :
    isBlankz c = false ∧ c ≠ 34 ∧ c ≠ 92 := by
  unfold mustEscape at h
  simp only [Bool.or_eq_false_iff, Bool.not_eq_false'] at h
  obtain ⟨⟨⟨⟨⟨h1, _⟩, _⟩, h4⟩, h5⟩, h6⟩ := h
  obtain ⟨p1, p2, _⟩ := printable_facts h1
  refine ⟨?_, by simpa using h5, by simpa using h6⟩
  unfold isBlankz isBlank isBreakz
  rw [hs, p1, p2, h4]; rfl

theorem foldBreaks_one : foldBreaks [0xA] = [0x20] := rfl

theorem breaksOut_one (lb : Break) : breaksOut lb [0xA] = brkText (some lb) := by
  unfold breaksOut breaksOut brkOut
  simp

theorem gap_text (lb : Break) (n : Nat) : Piece.text lb (.gap [0xA] n) = brkText (some lb) ++ List.replicate n 0x20 := by
  unfold Piece.text breaksOut breaksOut brkOut
  simp

/-- What the loop for double quoted scalars writes. -/
theorem tw_doubleLoop {ab : Bool} {lb : Break} (v : Text) (first spaces : Bool) (s : Emitter) (hl : s.lineBreak = some lb) (hi : 1 ≤ s.indentCol)
    (hu : ∀ c ∈ v, UScalar c) (hin : MidLine s spaces) :
    tw (doubleLoop ab v first spaces) (fun _ t _ => ∃ ps, Pieces false (if spaces = true then 1 else 0) ps ∧ pText lb ps = t ∧ pValue ps = v ∧
      (spaces = true → if isSpace (nextC v) = true then ∃ qs, ps = .sp :: qs else Pieces false 2 ps)) s := by
  induction v generalizing s first spaces with
  | nil =>
    unfold doubleLoop
    rw [tw_pure]
    exact ⟨[], trivial, rfl, rfl, fun _ => trivial⟩
  | cons c cs ih =>
    have hu1 := hu c List.mem_cons_self
    have hu2 : ∀ c ∈ cs, UScalar c := fun x hx => hu x (List.mem_cons_of_mem _ hx)
    have stay : ∀ k sp, 1 ≤ k → MidLine { s with column := s.column + k } sp := by
      intro k sp hk
      rcases hin with h | h
      · exact .inl h
      · refine .inr ?_
        have h : s.indentCol ≤ s.column := by split at h <;> omega
        show if sp = true then s.indentCol ≤ s.column + k else s.indentCol < s.column + k
        split <;> omega
    unfold doubleLoop
    rw [tw_bind, tw_getE, tw_ite]
    by_cases he : mustEscape s.unicode c = true
    · rw [if_pos he, tw_bind, tw_putC, tw_bind, tw_writeAll]
      have hsp : isSpace c = false := by
        cases h : isSpace c with
        | false => rfl
        | true =>
          have : c = 0x20 := by simpa [isSpace] using h
          subst this
          revert he
          cases s.unicode <;> decide
      have e : s.column + 1 + (escapeText c).length = s.column + (1 + (escapeText c).length) := by omega
      have := ih (s := { s with column := s.column + (1 + (escapeText c).length) }) false false hl hi hu2 (stay _ _ (by omega))
      simp only [e]
      refine tw_mono this ?_
      rintro _ t s' ⟨ps, h1, h2, h3, _⟩
      refine ⟨.esc (92 :: escapeText c) c :: ps, ⟨.inr ⟨rfl, hu1⟩, (fun h => by cases h), (fun h => by cases h), h1⟩, ?_, ?_, fun _ => ?_⟩
      · simp only [pText, Piece.text, h2, List.cons_append, List.nil_append]
      · simp only [pValue, Piece.value, h3, List.cons_append, List.nil_append]
      · simp only [nextC, hsp, Bool.false_eq_true, if_false]
        exact ⟨.inr ⟨rfl, hu1⟩, (fun h => by cases h), (fun h => by cases h), h1⟩
    · rw [if_neg he, tw_ite]
      by_cases hsp : isSpace c = true
      · rw [if_pos hsp, tw_bind, tw_ite]
        have hc : c = 0x20 := by simpa [isSpace] using hsp
        subst hc
        by_cases hfold : (ab && !spaces && s.overWidth && !first && !cs.isEmpty) = true
        · rw [if_pos hfold, tw_bind]
          have hs0 : spaces = false := by
            simp only [Bool.and_eq_true, Bool.not_eq_true'] at hfold
            exact hfold.1.1.1.2
          subst hs0
          rw [tw_writeIndent hin.needBreak, tw_whenE]
          by_cases hnext : isSpace (nextC cs) = true
          · rw [if_pos hnext, tw_putC]
            refine tw_mono (ih (s := { s with column := s.indentCol + 1, line := s.line + 1, whitespace := true, indention := true }) false true hl hi hu2 (.inr (by
              show s.indentCol ≤ s.indentCol + 1; omega))) ?_
            rintro _ t s' ⟨ps, h1, h2, h3, h4⟩
            have h4 := h4 rfl
            rw [if_pos hnext] at h4
            obtain ⟨qs, rfl⟩ := h4
            have g1 : (Piece.gap [0xA] s.indentCol).Ok false := ⟨by simp, by simp [keptBreak], hi⟩
            refine ⟨.gap [0xA] s.indentCol :: .esc [92, 32] 32 :: qs, ⟨g1, fun _ => rfl, (fun h => by cases h), .inl ⟨rfl, rfl⟩,
              (fun h => by cases h), (fun h => by cases h), h1.2.2.2.weaken⟩, ?_, ?_, fun h => by cases h⟩
            · simp only [pText, Piece.text, breaksOut_one, ← h2, hl]
              simp
            · simp only [pValue, Piece.value, foldBreaks_one] at h3 ⊢
              rw [← h3]; simp
          · rw [if_neg hnext]
            refine tw_mono (ih (s := { s with column := s.indentCol, line := s.line + 1, whitespace := true, indention := true }) false true hl hi hu2 (.inr (by
              show s.indentCol ≤ s.indentCol; omega))) ?_
            rintro _ t s' ⟨ps, h1, h2, h3, h4⟩
            have h4 := h4 rfl
            rw [if_neg hnext] at h4
            have g1 : (Piece.gap [0xA] s.indentCol).Ok false := ⟨by simp, by simp [keptBreak], hi⟩
            refine ⟨.gap [0xA] s.indentCol :: ps, ⟨g1, fun _ => rfl, (fun h => by cases h), h4⟩, ?_, ?_, fun h => by cases h⟩
            · simp only [pText, gap_text, ← h2, hl]
              simp
            · simp only [pValue, Piece.value, foldBreaks_one, h3]
              simp
        · rw [if_neg hfold, tw_putC]
          refine tw_mono (ih (s := { s with column := s.column + 1 }) false true hl hi hu2 (stay 1 true (by omega))) ?_
          rintro _ t s' ⟨ps, h1, h2, h3, _⟩
          refine ⟨.sp :: ps, ⟨trivial, (fun h => by cases h), (fun _ => by split <;> decide), h1⟩, ?_, ?_, fun _ => ?_⟩
          · simp only [pText, Piece.text, h2]; rfl
          · simp only [pValue, Piece.value, h3]; rfl
          · rw [if_pos (show isSpace (nextC (0x20 :: cs)) = true from rfl)]; exact ⟨ps, rfl⟩
      · rw [if_neg hsp, tw_bind, tw_putC]
        have he' : mustEscape s.unicode c = false := by simpa using he
        have hsp' : isSpace c = false := by simpa using hsp
        refine tw_mono (ih (s := { s with column := s.column + 1 }) false false hl hi hu2 (stay 1 false (by omega))) ?_
        rintro _ t s' ⟨ps, h1, h2, h3, _⟩
        have hlit : (Piece.lit c).Ok false := notSpecial_lit he' hsp'
        refine ⟨.lit c :: ps, ⟨hlit, (fun h => by cases h), (fun h => by cases h), h1⟩, ?_, ?_, fun _ => ?_⟩
        · simp only [pText, Piece.text, h2]; rfl
        · simp only [pValue, Piece.value, h3]; rfl
        · simp only [nextC, hsp', Bool.false_eq_true, if_false]
          exact ⟨hlit, (fun h => by cases h), (fun h => by cases h), h1⟩

/-- The text before a quoted scalar. -/
def lead (s : Emitter) : Text := if s.whitespace = true then [] else [0x20]

/-- What is written for a double quoted scalar. -/
theorem tw_writeDouble {ab : Bool} {lb : Break} {v : Text} {s : Emitter} (hl : s.lineBreak = some lb) (hi : 1 ≤ s.indentCol)
    (hu : ∀ c ∈ v, UScalar c) :
    tw (writeDouble v ab) (fun _ t _ => ∃ ps, Pieces false 0 ps ∧ pValue ps = v ∧ t = lead s ++ 34 :: (pText lb ps ++ [34])) s := by
  unfold writeDouble
  rw [tw_bind, tw_writeIndicator, tw_bind]
  refine tw_mono (tw_doubleLoop v true false _ hl hi hu (.inl (by simp))) ?_
  rintro _ t s' ⟨ps, h1, h2, h3, _⟩
  rw [tw_bind, tw_writeIndicator, tw_setWs]
  refine ⟨ps, h1, h3, ?_⟩
  rw [h2]
  unfold lead
  cases s.whitespace <;> simp

end LibYaml
