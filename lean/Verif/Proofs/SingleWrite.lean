import Verif.Proofs.QuotedWrite
import Verif.Proofs.Analysis

/-! What the writer of single quoted scalars writes. -/

namespace LibYaml

/-- The loop and the indentation before the closing quote. -/
def singleAll (ab : Bool) (v : Text) (first spaces breaks : Bool) : EM Unit := do
  let b ← singleLoop ab v first spaces breaks
  whenE b writeIndent

theorem singleAll_cons {ab : Bool} {c : Nat} {cs : Text} {first spaces breaks : Bool} {Q : Unit → Text → Emitter → Prop} {s : Emitter} :
    tw (singleAll ab (c :: cs) first spaces breaks) Q s ↔
      if isSpace c = true then
        tw (do
          let s ← getE
          (if ab && !spaces && s.overWidth && !first && !cs.isEmpty && !isSpace (nextC cs) then writeIndent else putC c)
          singleAll ab cs false true breaks) Q s
      else if isBreak c = true then
        tw (do
          whenE (!breaks && c == 0xA) putBreak
          writeBreak c
          modE fun s => { s with indention := true }
          singleAll ab cs false spaces true) Q s
      else
        tw (do
          whenE breaks writeIndent
          whenE (c == c! '\'') (putC (c! '\''))
          putC c
          modE fun s => { s with indention := false }
          singleAll ab cs false false false) Q s := by
  unfold singleAll
  rw [tw_bind, singleLoop, tw_ite]
  split
  · simp only [tw_bind, List.append_assoc]
  · rw [tw_ite]
    split
    · simp only [tw_bind, List.append_assoc]
    · simp only [tw_bind, List.append_assoc]

/-- The text of a run of line breaks, and what the loop goes on with. -/
theorem tw_singleAll {ab : Bool} {lb : Break} (v : Text) (first spaces breaks : Bool) (s : Emitter) (hl : s.lineBreak = some lb)
    (hi : 1 ≤ s.indentCol) (hp : ∀ c ∈ v, isPrintable c = true) (hadj : NoAdj v)
    (ha1 : spaces = true → isBreak (nextC v) = false) (ha2 : breaks = true → isSpace (nextC v) = false)
    (hb : breaks = true → s.column = 0 ∧ s.indention = true) (hin : breaks = false → MidLine s spaces) :
    tw (singleAll ab v first spaces breaks) (fun _ t _ =>
      if breaks = true then
        ∃ bs n ps, (∀ b ∈ bs, keptBreak b) ∧ 1 ≤ n ∧ Pieces true 2 ps ∧ t = breaksOut lb bs ++ (List.replicate n 0x20 ++ pText lb ps) ∧
          v = bs ++ pValue ps
      else
        ∃ ps, Pieces true (if spaces = true then 1 else 0) ps ∧ pText lb ps = t ∧ pValue ps = v ∧
          (spaces = true → isSpace (nextC v) = false → Pieces true 2 ps)) s := by
  induction v generalizing s first spaces breaks with
  | nil =>
    unfold singleAll singleLoop
    rw [tw_bind, tw_pure, tw_whenE]
    cases breaks with
    | false =>
      simp only [Bool.false_eq_true, if_false]
      exact ⟨[], trivial, rfl, rfl, fun _ _ => trivial⟩
    | true =>
      obtain ⟨h1, h2⟩ := hb rfl
      have hnb : s.needBreak = false := by
        unfold Emitter.needBreak; rw [h1, h2]
        have h3 : ¬ 0 > s.indentCol := by omega
        have h4 : ((0 : Nat) == s.indentCol) = false := by simp; omega
        simp [h4]
      simp only [if_true]
      rw [tw_writeIndent' hnb]
      exact ⟨[], s.indentCol - s.column, [], by simp, by omega, trivial, by simp [breaksOut, pText], rfl⟩
  | cons c cs ih =>
    obtain ⟨a1, a2, a3⟩ := hadj
    have hp1 := hp c List.mem_cons_self
    have hp2 : ∀ c ∈ cs, isPrintable c = true := fun x hx => hp x (List.mem_cons_of_mem _ hx)
    obtain ⟨p1, p2, p3⟩ := printable_facts hp1
    rw [singleAll_cons]
    cases hs : isSpace c with
    | true =>
      have hc : c = 0x20 := by simpa [isSpace] using hs
      subst hc
      have hbr : breaks = false := by
        cases breaks with
        | false => rfl
        | true => exact absurd (ha2 rfl) (by simp [nextC, isSpace])
      subst hbr
      have hcs : isBreak (nextC cs) = false := by
        cases h : isBreak (nextC cs) with
        | false => rfl
        | true => exact absurd ⟨hs, h⟩ a1
      simp only [if_true]
      rw [tw_bind, tw_getE, tw_bind, tw_ite]
      by_cases hf : (ab && !spaces && s.overWidth && !first && !cs.isEmpty && !isSpace (nextC cs)) = true
      · rw [if_pos hf]
        simp only [Bool.and_eq_true, Bool.not_eq_true'] at hf
        have hsp : spaces = false := hf.1.1.1.1.2
        have hns : isSpace (nextC cs) = false := hf.2
        subst hsp
        rw [tw_writeIndent (hin rfl).needBreak]
        refine tw_mono (ih (s := { s with column := s.indentCol, line := s.line + 1, whitespace := true, indention := true }) false true false hl hi hp2 a3
          (fun _ => hcs) (fun h => by cases h) (fun h => by cases h) (fun _ => .inr (by show s.indentCol ≤ s.indentCol; omega))) ?_
        rintro _ t s' ⟨ps, h1, h2, h3, h4⟩
        have h4 := h4 rfl hns
        have g1 : (Piece.gap [0xA] s.indentCol).Ok true := ⟨by simp, by simp [keptBreak], hi⟩
        refine ⟨.gap [0xA] s.indentCol :: ps, ⟨g1, fun _ => rfl, (fun h => by cases h), h4⟩, ?_, ?_, fun h => by cases h⟩
        · simp only [pText, Piece.text, breaksOut_one, ← h2, hl]; simp
        · simp only [pValue, Piece.value, foldBreaks_one, h3]; simp
      · rw [if_neg hf, tw_putC]
        refine tw_mono (ih (s := { s with column := s.column + 1 }) false true false hl hi hp2 a3
          (fun _ => hcs) (fun h => by cases h) (fun h => by cases h) (fun _ => ?_)) ?_
        · rcases hin rfl with h | h
          · exact .inl h
          · refine .inr ?_
            show s.indentCol ≤ s.column + 1
            split at h <;> omega
        · rintro _ t s' ⟨ps, h1, h2, h3, h4⟩
          refine ⟨.sp :: ps, ⟨trivial, (fun h => by cases h), (fun _ => by split <;> decide), h1⟩, ?_, ?_, fun _ hx => ?_⟩
          · simp only [pText, Piece.text, h2]; rfl
          · simp only [pValue, Piece.value, h3]; rfl
          · cases hx
    | false =>
      simp only [Bool.false_eq_true, if_false]
      cases hbk : isBreak c with
      | true =>
        have hk := p3 hbk
        have hsp : spaces = false := by
          cases spaces with
          | false => rfl
          | true => have := ha1 rfl; simp only [nextC] at this; rw [hbk] at this; cases this
        subst hsp
        have hns : isSpace (nextC cs) = false := by
          cases h : isSpace (nextC cs) with
          | false => rfl
          | true => exact absurd ⟨hbk, h⟩ a2
        simp only [if_true]
        rw [tw_bind, tw_whenE]
        cases breaks with
        | true =>
          rw [if_neg (by simp), tw_bind, tw_writeBreak hl, tw_bind, tw_modE]
          refine tw_mono (ih (s := { s with column := 0, line := s.line + 1, indention := true }) false false true hl hi hp2 a3
            (fun h => by cases h) (fun _ => hns) (fun _ => ⟨rfl, rfl⟩) (fun h => by cases h)) ?_
          rintro _ t s' ⟨bs, n, ps, h1, h2, h3, h4, h5⟩
          simp only [if_true]
          refine ⟨c :: bs, n, ps, ?_, h2, h3, ?_, ?_⟩
          · intro b hb
            rcases List.mem_cons.mp hb with rfl | hb
            · exact hk
            · exact h1 b hb
          · rw [h4]; simp [breaksOut]
          · rw [h5]; rfl
        | false =>
          have fin : ∀ (s0 : Emitter) (hl0 : s0.lineBreak = some lb) (hi0 : 1 ≤ s0.indentCol) (pre : Text),
              (pre = if c = 0xA then breaksOut lb [0xA] else []) →
              tw (do writeBreak c; modE fun s => { s with indention := true }; singleAll ab cs false false true) (fun _ u _ =>
                ∃ ps, Pieces true 0 ps ∧ pText lb ps = pre ++ u ∧ pValue ps = c :: cs) s0 := by
            intro s0 hl0 hi0 pre hpre
            rw [tw_bind, tw_writeBreak hl0, tw_bind, tw_modE]
            refine tw_mono (ih (s := { s0 with column := 0, line := s0.line + 1, indention := true }) false false true hl0 hi0 hp2 a3
              (fun h => by cases h) (fun _ => hns) (fun _ => ⟨rfl, rfl⟩) (fun h => by cases h)) ?_
            rintro _ t s' ⟨bs, n, ps, h1, h2, h3, h4, h5⟩
            by_cases hc : c = 0xA
            · subst hc
              rw [if_pos rfl] at hpre
              have g1 : (Piece.gap (0xA :: 0xA :: bs) n).Ok true := by
                refine ⟨by simp, ?_, h2⟩
                intro b hb
                simp only [List.mem_cons] at hb
                rcases hb with rfl | rfl | hb
                · exact hk
                · exact hk
                · exact h1 b hb
              refine ⟨.gap (0xA :: 0xA :: bs) n :: ps, ⟨g1, fun _ => rfl, (fun h => by cases h), h3⟩, ?_, ?_⟩
              · rw [hpre, h4]; simp [pText, Piece.text, breaksOut]
              · rw [h5]; simp [pValue, Piece.value, foldBreaks]
            · rw [if_neg hc] at hpre
              have g1 : (Piece.gap (c :: bs) n).Ok true := by
                refine ⟨by simp, ?_, h2⟩
                intro b hb
                rcases List.mem_cons.mp hb with rfl | hb
                · exact hk
                · exact h1 b hb
              refine ⟨.gap (c :: bs) n :: ps, ⟨g1, fun _ => rfl, (fun h => by cases h), h3⟩, ?_, ?_⟩
              · rw [hpre, h4]; simp [pText, Piece.text, breaksOut]
              · rw [h5]; simp [pValue, Piece.value, foldBreaks, hc]
          have wrap : ∀ t u : Text, (∃ ps, Pieces true 0 ps ∧ pText lb ps = t ++ u ∧ pValue ps = c :: cs) →
              ∃ ps, Pieces true (if false = true then 1 else 0) ps ∧ pText lb ps = t ++ u ∧ pValue ps = c :: cs ∧
                (false = true → isSpace (nextC (c :: cs)) = false → Pieces true 2 ps) := by
            rintro t u ⟨ps, h1, h2, h3⟩
            exact ⟨ps, h1, h2, h3, fun h => by cases h⟩
          by_cases hc : c = 0xA
          · rw [if_pos (by simp [hc]), tw_putBreak]
            refine tw_mono (fin { s with column := 0, line := s.line + 1 } hl hi (brkText s.lineBreak) (by rw [if_pos hc, breaksOut_one, hl])) ?_
            intro _ u _ h
            simpa only [Bool.false_eq_true, if_false] using wrap _ _ h
          · rw [if_neg (by simp [hc])]
            refine tw_mono (fin s hl hi [] (by rw [if_neg hc])) ?_
            intro _ u _ h
            simpa only [Bool.false_eq_true, if_false] using wrap _ _ h
      | false =>
        simp only [Bool.false_eq_true, if_false]
        have hbz : isBlankz c = false := by
          unfold isBlankz isBlank isBreakz
          rw [hs, p1, p2, hbk]; rfl
        -- the character itself
        have body : ∀ (s0 : Emitter) (hl0 : s0.lineBreak = some lb) (hi0 : 1 ≤ s0.indentCol),
            tw (do
              whenE (c == c! '\'') (putC (c! '\''))
              putC c
              modE fun s => { s with indention := false }
              singleAll ab cs false false false) (fun _ u _ => ∃ ps, (∀ k, Pieces true k ps) ∧ pText lb ps = u ∧ pValue ps = c :: cs) s0 := by
          intro s0 hl0 hi0
          rw [tw_bind, tw_whenE]
          by_cases hc : c = 39
          · subst hc
            rw [if_pos (by decide), tw_putC, tw_bind, tw_putC, tw_bind, tw_modE]
            refine tw_mono (ih (s := { s0 with column := s0.column + 1 + 1, indention := false }) false false false hl0 hi0 hp2 a3
              (fun h => by cases h) (fun h => by cases h) (fun h => by cases h) (fun _ => .inl rfl)) ?_
            rintro _ t s' ⟨ps, h1, h2, h3, _⟩
            refine ⟨.esc [39, 39] 39 :: ps, fun k => ⟨⟨rfl, rfl⟩, (fun h => by cases h), (fun h => by cases h), h1⟩, ?_, ?_⟩
            · simp only [pText, Piece.text, h2]; rfl
            · simp only [pValue, Piece.value, h3]; rfl
          · rw [if_neg (by simp [hc]), tw_bind, tw_putC, tw_bind, tw_modE]
            refine tw_mono (ih (s := { s0 with column := s0.column + 1, indention := false }) false false false hl0 hi0 hp2 a3
              (fun h => by cases h) (fun h => by cases h) (fun h => by cases h) (fun _ => .inl rfl)) ?_
            rintro _ t s' ⟨ps, h1, h2, h3, _⟩
            refine ⟨.lit c :: ps, fun k => ⟨⟨hbz, hc⟩, (fun h => by cases h), (fun h => by cases h), h1⟩, ?_, ?_⟩
            · simp only [pText, Piece.text, h2]; rfl
            · simp only [pValue, Piece.value, h3]; rfl
        rw [tw_bind, tw_whenE]
        cases breaks with
        | false =>
          rw [if_neg (by decide)]
          refine tw_mono (body s hl hi) ?_
          rintro _ u _ ⟨ps, h1, h2, h3⟩
          simp only [Bool.false_eq_true, if_false]
          exact ⟨ps, h1 _, h2, h3, fun _ _ => h1 _⟩
        | true =>
          obtain ⟨b1, b2⟩ := hb rfl
          have hnb : s.needBreak = false := by
            unfold Emitter.needBreak; rw [b1, b2]
            have h4 : ((0 : Nat) == s.indentCol) = false := by simp; omega
            simp [h4]
          rw [if_pos rfl, tw_writeIndent' hnb]
          refine tw_mono (body { s with column := s.column + (s.indentCol - s.column), whitespace := true, indention := true } hl hi) ?_
          rintro _ u _ ⟨ps, h1, h2, h3⟩
          simp only [if_true]
          refine ⟨[], s.indentCol - s.column, ps, by simp, by omega, h1 _, ?_, ?_⟩
          · rw [h2]; rfl
          · rw [h3]; rfl

/-- What is written for a single quoted scalar. -/
theorem tw_writeSingle {ab : Bool} {lb : Break} {v : Text} {s : Emitter} (hl : s.lineBreak = some lb) (hi : 1 ≤ s.indentCol)
    (hp : ∀ c ∈ v, isPrintable c = true) (hadj : NoAdj v) :
    tw (writeSingle v ab) (fun _ t _ => ∃ ps, Pieces true 0 ps ∧ pValue ps = v ∧ t = lead s ++ 39 :: (pText lb ps ++ [39])) s := by
  have key := tw_singleAll (ab := ab) v true false false
    { s with column := s.column + (if (true && !s.whitespace) = true then 1 else 0) + 1, whitespace := false, indention := s.indention && false } hl hi hp hadj
    (fun h => by cases h) (fun h => by cases h) (fun h => by cases h) (fun _ => .inl (by simp))
  unfold singleAll at key
  rw [tw_bind] at key
  unfold writeSingle
  rw [tw_bind, tw_writeIndicator, tw_bind]
  refine tw_mono key ?_
  intro b t s1 h1
  rw [tw_bind]
  refine tw_mono h1 ?_
  rintro _ u s2 ⟨ps, h1, h2, h3, _⟩
  rw [tw_bind, tw_writeIndicator, tw_setWs]
  refine ⟨ps, h1, h3, ?_⟩
  rw [h2]
  unfold lead
  cases s.whitespace <;> simp

end LibYaml
