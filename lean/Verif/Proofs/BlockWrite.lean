import Verif.Proofs.SingleWrite
import Verif.Proofs.BlockScan

/-!
# What the writers of block scalars write
-/

namespace LibYaml

/-- What the lines contribute to the value, together with the breaks `p ++ q` before them. -/
def joinVal (literal : Bool) : Bool → Text → Text → List BLine → Text
  | _, p, q, [] => p ++ q
  | lead, p, q, (l, b) :: ls =>
    blockJoin literal lead (isBlank (nextC l)) [] p q ++ (l ++ joinVal literal (isBlank (nextC l)) (b.take 1) (b.drop 1) ls)

/-- What the lines contribute to the value without the breaks before them. -/
def lineVal (literal : Bool) : List BLine → Text
  | [] => []
  | (l, b) :: ls => l ++ joinVal literal (isBlank (nextC l)) (b.take 1) (b.drop 1) ls

theorem blockJoin_nil (literal a b : Bool) (s p q : Text) : blockJoin literal a b s p q = s ++ blockJoin literal a b [] p q := by
  unfold blockJoin
  split
  · split <;> simp
  · simp

/-- The lines with further breaks after the last one. -/
def closeLast : List BLine → Text → List BLine
  | [], _ => []
  | [(l, b)], bs => [(l, b ++ bs)]
  | x :: y :: ls, bs => x :: closeLast (y :: ls) bs

theorem closeLast_ne {ls : List BLine} {bs : Text} (h : ls ≠ []) : closeLast ls bs ≠ [] := by
  cases ls with
  | nil => exact absurd rfl h
  | cons x ls => cases ls <;> simp [closeLast]

theorem linesOk_close {ls : List BLine} {bs : Text} (h : LinesOk ls) (hb : ∀ b ∈ bs, keptBreak b) : LinesOk (closeLast ls bs) := by
  induction ls with
  | nil => exact h
  | cons x ls ih =>
    obtain ⟨l, b⟩ := x
    obtain ⟨h1, h2, h3, h4, h5⟩ := h
    cases ls with
    | nil =>
      refine ⟨h1, h2, ?_, fun _ => rfl, trivial⟩
      intro c hc
      rcases List.mem_append.mp hc with hc | hc
      · exact h3 c hc
      · exact hb c hc
    | cons y ls =>
      refine ⟨h1, h2, h3, fun hbe => ?_, ih h5⟩
      have := h4 hbe
      cases this

/-- Some line break follows the last line. -/
def LastClosed (ls : List BLine) (bs : Text) : Prop := bs = [] → ∀ x ∈ ls.getLast?, x.2 ≠ []

theorem closed_close {ls : List BLine} {bs : Text} (h : LinesOk ls) (hl : LastClosed ls bs) : Closed (closeLast ls bs) := by
  induction ls with
  | nil => intro x hx; cases hx
  | cons x ls ih =>
    obtain ⟨l, b⟩ := x
    obtain ⟨h1, h2, h3, h4, h5⟩ := h
    cases ls with
    | nil =>
      intro x hx
      simp only [closeLast, List.mem_singleton] at hx
      subst hx
      intro hx
      simp only [List.append_eq_nil_iff] at hx
      exact hl hx.2 (l, b) rfl hx.1
    | cons y ls =>
      intro x hx
      simp only [closeLast, List.mem_cons] at hx
      rcases hx with rfl | hx
      · intro hbe
        have := h4 hbe
        cases this
      · refine ih h5 (fun hbs x hx => hl hbs x ?_) x hx
        simpa using hx

theorem linesText_close {lb : Break} {d : Nat} {ls : List BLine} {bs : Text} (h : ls ≠ []) :
    linesText lb d (closeLast ls bs) = linesText lb d ls ++ breaksOut lb bs := by
  induction ls with
  | nil => exact absurd rfl h
  | cons x ls ih =>
    obtain ⟨l, b⟩ := x
    cases ls with
    | nil =>
      have : ∀ a c, breaksOut lb (a ++ c) = breaksOut lb a ++ breaksOut lb c := by
        intro a c
        induction a with
        | nil => rfl
        | cons y a ih => simp only [List.cons_append, breaksOut, ih, List.append_assoc]
      simp [closeLast, linesText, this]
    | cons y ls =>
      simp only [closeLast, linesText] at ih ⊢
      rw [ih (by simp)]
      simp

/-- What the scanner makes of the lines. -/
theorem blockValue_close {literal : Bool} {ls : List BLine} {bs : Text} (h : ls ≠ []) (hok : LinesOk ls) (lead : Bool) (s p q : Text) :
    ∃ s' c b, blockValue literal lead s p q (closeLast ls bs) = (s' ++ [c], (b ++ bs).take 1, (b ++ bs).drop 1) ∧
      s ++ joinVal literal lead p q ls = s' ++ c :: b ∧ isBreak c = false ∧ (∀ x ∈ ls.getLast?, x.2 = b) ∧ ∀ x ∈ b, keptBreak x := by
  induction ls generalizing lead s p q with
  | nil => exact absurd rfl h
  | cons x ls ih =>
    obtain ⟨l, b⟩ := x
    obtain ⟨h1, h2, h3, h4, h5⟩ := hok
    cases ls with
    | nil =>
      obtain ⟨l', c, rfl⟩ : ∃ l' c, l = l' ++ [c] := ⟨l.dropLast, l.getLast h1, (List.dropLast_concat_getLast h1).symm⟩
      refine ⟨blockJoin literal lead (isBlank (nextC (l' ++ [c]))) s p q ++ l', c, b, ?_, ?_, ?_, ?_, h3⟩
      · simp [closeLast, blockValue]
      · rw [blockJoin_nil]
        simp only [joinVal, List.take_append_drop, List.append_assoc, List.cons_append, List.nil_append]
      · have := h2 c (by simp)
        unfold isBreakz at this
        exact (Bool.or_eq_false_iff.mp this).1
      · intro x hx
        simp only [List.getLast?_singleton, Option.mem_some_iff] at hx
        rw [← hx]
    | cons y ls =>
      obtain ⟨s', c, b', e1, e2, e3, e4, e5⟩ := ih (by simp) h5 (isBlank (nextC l)) (blockJoin literal lead (isBlank (nextC l)) s p q ++ l) (b.take 1) (b.drop 1)
      refine ⟨s', c, b', ?_, ?_, e3, ?_, e5⟩
      · simp only [closeLast, blockValue]
        exact e1
      · rw [← e2, blockJoin_nil]
        simp [joinVal]
      · simpa using e4

/-! ### Chomping -/

/-- The indicator as the scanner understands it. -/
def chompFor (v : Text) : Chomp :=
  if (chompHint v.reverse).1 = [45] then .strip else if (chompHint v.reverse).1 = [43] then .keep else .clip

theorem chompHint_text (v : Text) : (chompHint v.reverse).1 = chompText (chompFor v) := by
  unfold chompFor
  generalize v.reverse = r
  match r with
  | [] => rfl
  | [c] => cases h : isBreak c <;> simp [chompHint, h, chompText]
  | c :: e :: r => cases h : isBreak c <;> cases h' : isBreak e <;> simp [chompHint, h, h', chompText]

/-- What the chomping indicator means for the breaks that follow the text. -/
def ChompEnd (v bs : Text) : Prop :=
  match chompFor v with
  | .strip => bs ≠ []
  | .clip => True
  | .keep => bs = []

theorem chomp_value {s b bs : Text} {c : Nat} (hc : isBreak c = false) (hb : ∀ x ∈ b, keptBreak x) (h : ChompEnd (s ++ c :: b) bs) :
    chompTail (chompFor (s ++ c :: b)) (s ++ [c]) ((b ++ bs).take 1) ((b ++ bs).drop 1) = s ++ c :: b ∧
    (bs = [] → b ≠ []) := by
  have hbr : ∀ x, keptBreak x → isBreak x = true := by
    rintro x (rfl | rfl | rfl) <;> decide
  unfold ChompEnd at h
  cases b with
  | nil =>
    have : chompFor (s ++ [c]) = .strip := by
      unfold chompFor
      have : (chompHint (s ++ [c]).reverse).1 = [45] := by
        rw [List.reverse_append]
        show (chompHint (c :: s.reverse)).1 = [45]
        cases s.reverse with
        | nil => simp [chompHint, hc]
        | cons d r => simp [chompHint, hc]
      rw [if_pos this]
    rw [this] at h ⊢
    exact ⟨rfl, fun hx => absurd hx h⟩
  | cons b1 b =>
    refine ⟨?_, fun _ => by simp⟩
    cases b with
    | nil =>
      have : chompFor (s ++ [c, b1]) = .clip := by
        unfold chompFor
        have : (chompHint (s ++ [c, b1]).reverse).1 = [] := by
          rw [List.reverse_append]
          show (chompHint (b1 :: c :: s.reverse)).1 = []
          simp [chompHint, hc, hbr b1 (hb b1 List.mem_cons_self)]
        rw [this]; rfl
      rw [this]
      simp [chompTail]
    | cons b2 b =>
      have hkeep : chompFor (s ++ c :: b1 :: b2 :: b) = .keep := by
        unfold chompFor
        have : (chompHint (s ++ c :: b1 :: b2 :: b).reverse).1 = [43] := by
          have e : s ++ c :: b1 :: b2 :: b = (s ++ [c]) ++ (b1 :: b2 :: b) := by simp
          rw [e, List.reverse_append]
          generalize hr : (b1 :: b2 :: b).reverse = r
          have hl : r.length = (b1 :: b2 :: b).length := by rw [← hr]; simp
          have hm : ∀ x ∈ r, keptBreak x := by
            intro x hx
            rw [← hr, List.mem_reverse] at hx
            exact hb x hx
          match r, hl, hm with
          | x :: y :: r, _, hm =>
            show (chompHint (x :: y :: (r ++ (s ++ [c]).reverse))).1 = [43]
            simp [chompHint, hbr x (hm x List.mem_cons_self), hbr y (hm y (List.mem_cons_of_mem _ List.mem_cons_self))]
        rw [this]; rfl
      rw [hkeep] at h ⊢
      subst h
      simp [chompTail]

/-- All breaks. -/
theorem chomp_breaks {b : Text} (hne : b ≠ []) (hb : ∀ x ∈ b, keptBreak x) : chompFor b = .keep := by
  have hbr : ∀ x, keptBreak x → isBreak x = true := by
    rintro x (rfl | rfl | rfl) <;> decide
  unfold chompFor
  have : (chompHint b.reverse).1 = [43] := by
    generalize hr : b.reverse = r
    have hm : ∀ x ∈ r, keptBreak x := by
      intro x hx
      rw [← hr, List.mem_reverse] at hx
      exact hb x hx
    match r, hr, hm with
    | [], hr, _ => simp at hr; exact absurd hr hne
    | [x], _, hm => simp [chompHint, hbr x (hm x List.mem_cons_self)]
    | x :: y :: r, _, hm =>
      simp [chompHint, hbr x (hm x List.mem_cons_self), hbr y (hm y (List.mem_cons_of_mem _ List.mem_cons_self))]
  rw [this]; rfl

/-! ### The literal writer -/

theorem joinVal_literal (lead : Bool) (p q : Text) (ls : List BLine) : joinVal true lead p q ls = p ++ q ++ lineVal true ls := by
  cases ls with
  | nil => simp [joinVal, lineVal]
  | cons x ls =>
    obtain ⟨l, b⟩ := x
    simp [joinVal, lineVal, blockJoin]

section
variable {s : Emitter} {lb : Break} {d : Nat}

theorem needBreak_start (hc : s.column = 0) (hi : s.indention = true) (hd : s.indentCol = d) (h1 : 1 ≤ d) : s.needBreak = false := by
  unfold Emitter.needBreak
  rw [hc, hi, hd]
  have h3 : ¬ 0 > d := by omega
  have h4 : ((0 : Nat) == d) = false := by simp; omega
  simp [h4]

theorem tw_literalLoop (v : Text) (breaks : Bool) (hl : s.lineBreak = some lb) (hd : s.indentCol = d) (h1 : 1 ≤ d)
    (hp : ∀ c ∈ v, isPrintable c = true) (hb : breaks = true → s.column = 0 ∧ s.indention = true) :
    tw (literalLoop v breaks) (fun _ t _ =>
      if breaks = true then ∃ b0 ls, (∀ b ∈ b0, keptBreak b) ∧ LinesOk ls ∧ t = breaksOut lb b0 ++ linesText lb d ls ∧ v = b0 ++ lineVal true ls
      else ∃ l b ls, (∀ c ∈ l, isBreakz c = false) ∧ (∀ c ∈ b, keptBreak c) ∧ (b = [] → ls = []) ∧ LinesOk ls ∧
        t = l ++ (breaksOut lb b ++ linesText lb d ls) ∧ v = l ++ (b ++ lineVal true ls)) s := by
  induction v generalizing s breaks with
  | nil =>
    unfold literalLoop
    rw [tw_pure]
    split
    · exact ⟨[], [], by simp, trivial, rfl, rfl⟩
    · exact ⟨[], [], [], by simp, by simp, fun _ => rfl, trivial, rfl, rfl⟩
  | cons c cs ih =>
    have hp1 := hp c List.mem_cons_self
    have hp2 : ∀ c ∈ cs, isPrintable c = true := fun x hx => hp x (List.mem_cons_of_mem _ hx)
    obtain ⟨p1, p2, p3⟩ := printable_facts hp1
    unfold literalLoop
    rw [tw_ite]
    cases hbk : isBreak c with
    | true =>
      have hk := p3 hbk
      rw [if_pos rfl, tw_bind, tw_writeBreak hl, tw_bind, tw_modE]
      refine tw_mono (ih (s := { s with column := 0, line := s.line + 1, indention := true }) true hl hd hp2 (fun _ => ⟨rfl, rfl⟩)) ?_
      intro _ t s' h
      rw [if_pos rfl] at h
      obtain ⟨b0, ls, k1, k2, rfl, k4⟩ := h
      have k0 : ∀ x ∈ c :: b0, keptBreak x := by
        intro x hx
        rcases List.mem_cons.mp hx with rfl | hx
        · exact hk
        · exact k1 x hx
      split
      · exact ⟨c :: b0, ls, k0, k2, by simp [breaksOut], by simp [k4]⟩
      · exact ⟨[], c :: b0, ls, by simp, k0, (fun h => by cases h), k2, by simp [breaksOut], by simp [k4]⟩
    | false =>
      have hz : isBreakz c = false := by unfold isBreakz; rw [hbk, p2]; rfl
      rw [if_neg (by decide), tw_bind, tw_whenE]
      have fin : ∀ (s0 : Emitter), s0.lineBreak = some lb → s0.indentCol = d →
          tw (do putC c; modE fun s => { s with indention := false }; literalLoop cs false)
            (fun _ t _ => ∃ l b ls, (∀ c ∈ l, isBreakz c = false) ∧ (∀ c ∈ b, keptBreak c) ∧ (b = [] → ls = []) ∧ LinesOk ls ∧
              t = c :: (l ++ (breaksOut lb b ++ linesText lb d ls)) ∧ cs = l ++ (b ++ lineVal true ls)) s0 := by
        intro s0 q1 q2
        rw [tw_bind, tw_putC, tw_bind, tw_modE]
        refine tw_mono (ih (s := { s0 with column := s0.column + 1, indention := false }) false q1 q2 hp2 (fun h => by cases h)) ?_
        intro _ t s' h
        rw [if_neg (by decide)] at h
        obtain ⟨l, b, ls, k1, k2, k3, k4, rfl, k6⟩ := h
        exact ⟨l, b, ls, k1, k2, k3, k4, rfl, k6⟩
      have hcons : ∀ {l : Text}, (∀ c ∈ l, isBreakz c = false) → ∀ x ∈ c :: l, isBreakz x = false := by
        intro l h x hx
        rcases List.mem_cons.mp hx with rfl | hx
        · exact hz
        · exact h x hx
      cases breaks with
      | true =>
        obtain ⟨hc0, hi0⟩ := hb rfl
        rw [if_pos rfl, tw_writeIndent' (needBreak_start hc0 hi0 hd h1)]
        refine tw_mono (fin _ hl hd) ?_
        rintro _ t s' ⟨l, b, ls, k1, k2, k3, k4, rfl, k6⟩
        rw [if_pos rfl]
        refine ⟨[], (c :: l, b) :: ls, by simp, ⟨by simp, hcons k1, k2, k3, k4⟩, ?_, ?_⟩
        · rw [hd, hc0]
          simp [breaksOut, linesText]
        · rw [lineVal, joinVal_literal, List.take_append_drop, k6]
          rfl
      | false =>
        rw [if_neg (by decide)]
        refine tw_mono (fin s hl hd) ?_
        rintro _ t s' ⟨l, b, ls, k1, k2, k3, k4, rfl, k6⟩
        rw [if_neg (by decide)]
        exact ⟨c :: l, b, ls, hcons k1, k2, k3, k4, by simp, by simp [k6]⟩

end

/-! ### The folded writer -/

/-- In every line that begins with a blank, each single space after the first character has at most `room` characters before it. The flag says
that a line starts here; otherwise the number is that of the characters before this point in a line that begins with a blank. -/
def Narrow (room : Int) : Bool → Option Nat → Text → Prop
  | _, _, [] => True
  | start, n, c :: cs =>
    if isBreak c = true then Narrow room true none cs
    else if start = true then
      (if isBlank c = true then Narrow room false (some 1) cs else Narrow room false none cs)
    else match n with
      | some k => ((isSpace c && !isSpace (nextC cs)) = true → (k : Int) ≤ room) ∧ Narrow room false (some (k + 1)) cs
      | none => Narrow room false none cs

theorem narrow_cons {room : Int} {start : Bool} {n : Option Nat} {c : Nat} {cs : Text} : Narrow room start n (c :: cs) =
    if isBreak c = true then Narrow room true none cs
    else if start = true then
      (if isBlank c = true then Narrow room false (some 1) cs else Narrow room false none cs)
    else match n with
      | some k => ((isSpace c && !isSpace (nextC cs)) = true → (k : Int) ≤ room) ∧ Narrow room false (some (k + 1)) cs
      | none => Narrow room false none cs := by
  cases n <;> rfl

/-- A space is followed by a character that is neither a break nor the end. -/
def NoSpaceBreak : Text → Prop
  | [] => True
  | c :: cs => (isSpace c = true → isBreakz (nextC cs) = false) ∧ NoSpaceBreak cs

theorem flagLoop_spaceBreak {u : Bool} {cs : Text} {first : Bool} {f : Flags} (h1 : (flagLoop u cs first f).trailingSpace = false)
    (h2 : (flagLoop u cs first f).spaceBreak = false) (h3 : (flagLoop u cs first f).specialCharacters = false) :
    (f.previousSpace = true → isBreak (nextC cs) = false) ∧ NoSpaceBreak cs := by
  induction cs generalizing first f with
  | nil => exact ⟨fun _ => rfl, trivial⟩
  | cons c cs ih =>
    have hp := flagLoop_special h3
    rw [flagLoop_cons] at h1 h2 h3
    obtain ⟨i1, i2⟩ := ih h1 h2 h3
    have k1 := notTrue_le (flagLoop_le _ _ _ _).ts h1
    have k2 := notTrue_le (flagLoop_le _ _ _ _).sb h2
    rw [flagStep_ts, Bool.or_eq_false_iff] at k1
    rw [flagStep_sb, Bool.or_eq_false_iff] at k2
    rw [flagStep_ps] at i1
    refine ⟨fun h => ?_, fun hs => ?_, i2⟩
    · cases hs : isSpace c with
      | true => exact not_space_break hs
      | false =>
        rw [hs, h] at k2
        simpa [nextC] using k2.2
    · rw [hs] at k1 i1
      cases cs with
      | nil => cases k1.2
      | cons x cs =>
        obtain ⟨_, p2, _⟩ := printable_facts (hp x (by simp)).1
        have := i1 rfl
        unfold isBreakz
        simp only [nextC] at this ⊢
        rw [this, p2]; rfl

/-- What is known when the block styles are allowed. -/
theorem block_allowed {u : Bool} {v : Text} (hne : v ≠ []) (h : (analyzeScalarData u v).blockAllowed = true) :
    (∀ c ∈ v, isPrintable c = true) ∧ NoSpaceBreak v := by
  unfold analyzeScalarData at h
  split at h
  · rename_i hv
    exact absurd (by simpa using hv) hne
  · unfold scalarData at h
    simp only [Bool.not_eq_true', Bool.or_eq_false_iff] at h
    exact ⟨fun c hc => (flagLoop_special h.2 c hc).1, (flagLoop_spaceBreak h.1.1 h.1.2 h.2).2⟩

section
variable {s : Emitter} {lb : Break} {d : Nat}

/-- The first line of the rest. -/
def FirstLine (v : Text) (ls : List BLine) : Prop := ∀ l b ls', ls = (l, b) :: ls' → nextC (v.dropWhile isBreak) = nextC l

theorem breaksOut_lf (b : Text) : breaksOut lb (0xA :: b) = brkText (some lb) ++ breaksOut lb b := by
  simp [breaksOut, brkOut]

/-- The breaks before a line of the value and those that are written. -/
theorem join_breaks {lead : Bool} {c : Nat} {cs b0 : Text} {ls : List BLine} (hcs : cs = b0 ++ lineVal false ls) (hf : FirstLine cs ls)
    (hok : LinesOk ls) (hcont : isBlankz (nextC (cs.dropWhile isBreak)) = false → ls ≠ []) :
    ∃ b, breaksOut lb b = (if (!lead && c == 0xA && !isBlankz (nextC (cs.dropWhile isBreak))) = true then brkText (some lb) else []) ++ (brkOut lb c ++ breaksOut lb b0) ∧
      (∀ x ∈ b, x = 0xA ∨ x = c ∨ x ∈ b0) ∧ b ≠ [] ∧ c :: cs = joinVal false lead (b.take 1) (b.drop 1) ls := by
  by_cases hx : (!lead && c == 0xA && !isBlankz (nextC (cs.dropWhile isBreak))) = true
  · rw [if_pos hx]
    simp only [Bool.and_eq_true, Bool.not_eq_true', beq_iff_eq] at hx
    obtain ⟨⟨x1, x2⟩, x3⟩ := hx
    subst x2
    refine ⟨0xA :: 0xA :: b0, by rw [breaksOut_lf]; rfl, ?_, by simp, ?_⟩
    · intro x hx
      simp only [List.mem_cons] at hx
      rcases hx with h | h | h
      · exact .inl h
      · exact .inl h
      · exact .inr (.inr h)
    cases ls with
    | nil => exact absurd rfl (hcont x3)
    | cons y ls =>
      obtain ⟨l, b⟩ := y
      have hb : isBlank (nextC l) = false := by
        rw [hf l b ls rfl] at x3
        unfold isBlankz at x3
        exact (Bool.or_eq_false_iff.mp x3).1
      simp [joinVal, blockJoin, hb, x1, hcs, lineVal]
  · rw [if_neg hx]
    refine ⟨c :: b0, by simp [breaksOut], ?_, by simp, ?_⟩
    · intro x hx
      simp only [List.mem_cons] at hx
      exact .inr hx
    cases ls with
    | nil => simp [joinVal, hcs, lineVal]
    | cons y ls =>
      obtain ⟨l, b⟩ := y
      obtain ⟨h1, h2, _⟩ := hok
      have hz : isBlankz (nextC (cs.dropWhile isBreak)) = isBlank (nextC l) := by
        rw [hf l b ls rfl]
        cases l with
        | nil => exact absurd rfl h1
        | cons e l =>
          have := h2 e List.mem_cons_self
          show isBlankz e = isBlank e
          unfold isBlankz
          rw [this]; simp
      rw [hz] at hx
      have hj : blockJoin false lead (isBlank (nextC l)) [] [c] b0 = c :: b0 := by
        unfold blockJoin
        rw [if_neg]
        · rfl
        · intro hy
          apply hx
          simp only [Bool.and_eq_true, Bool.not_eq_true', beq_iff_eq, List.head?_cons, Option.some.injEq] at hy ⊢
          exact ⟨⟨hy.1.2, hy.1.1.2⟩, hy.2⟩
      simp [joinVal, hj, hcs, lineVal]

theorem tw_foldedLoop (v : Text) (breaks leading : Bool) (n : Option Nat) (hl : s.lineBreak = some lb) (hd : s.indentCol = d) (h1 : 1 ≤ d)
    (hp : ∀ c ∈ v, isPrintable c = true) (hsb : NoSpaceBreak v) (hb : breaks = true → s.column = 0 ∧ s.indention = true)
    (hb' : breaks = false → s.indention = false)
    (hw : Narrow (s.bestWidth - d) breaks n v) (hn : breaks = false → (leading = true → ∃ k, n = some k ∧ s.column = d + k)) :
    tw (foldedLoop v breaks leading) (fun _ t _ =>
      if breaks = true then ∃ b0 ls, (∀ b ∈ b0, keptBreak b) ∧ LinesOk ls ∧ t = breaksOut lb b0 ++ linesText lb d ls ∧ v = b0 ++ lineVal false ls ∧
        FirstLine v ls ∧ (isBlankz (nextC (v.dropWhile isBreak)) = false → ls ≠ [])
      else ∃ l b ls, (∀ c ∈ l, isBreakz c = false) ∧ (∀ c ∈ b, keptBreak c) ∧ (b = [] → ls = []) ∧ LinesOk ls ∧
        t = l ++ (breaksOut lb b ++ linesText lb d ls) ∧ v = l ++ joinVal false leading (b.take 1) (b.drop 1) ls ∧
        (isBlankz (nextC v) = false → l ≠ [] ∧ nextC l = nextC v)) s := by
  induction v generalizing s breaks leading n with
  | nil =>
    unfold foldedLoop
    rw [tw_pure]
    split
    · exact ⟨[], [], by simp, trivial, rfl, rfl, (fun l b ls h => by cases h), (fun h => by revert h; decide)⟩
    · exact ⟨[], [], [], by simp, by simp, fun _ => rfl, trivial, rfl, rfl, (fun h => by revert h; decide)⟩
  | cons c cs ih =>
    have hp1 := hp c List.mem_cons_self
    have hp2 : ∀ c ∈ cs, isPrintable c = true := fun x hx => hp x (List.mem_cons_of_mem _ hx)
    obtain ⟨p1, p2, p3⟩ := printable_facts hp1
    obtain ⟨sb1, sb2⟩ := hsb
    unfold foldedLoop
    rw [tw_ite]
    cases hbk : isBreak c with
    | true =>
      have hk := p3 hbk
      have hw' : Narrow (s.bestWidth - d) true none cs := by
        rw [narrow_cons, if_pos hbk] at hw; exact hw
      have hdw : (c :: cs).dropWhile isBreak = cs.dropWhile isBreak := by rw [List.dropWhile_cons, if_pos hbk]
      have hbz : isBlankz c = true := by
        unfold isBlankz isBreakz
        rw [hbk]; simp
      rw [if_pos rfl, tw_bind, tw_whenE]
      have fin : ∀ (s0 : Emitter), s0.lineBreak = some lb → s0.indentCol = d → s0.bestWidth = s.bestWidth →
          tw (do writeBreak c; modE fun s => { s with indention := true }; foldedLoop cs true leading)
            (fun _ t _ => ∃ b0 ls, (∀ b ∈ b0, keptBreak b) ∧ LinesOk ls ∧ t = brkOut lb c ++ (breaksOut lb b0 ++ linesText lb d ls) ∧ cs = b0 ++ lineVal false ls ∧
              FirstLine cs ls ∧ (isBlankz (nextC (cs.dropWhile isBreak)) = false → ls ≠ [])) s0 := by
        intro s0 q1 q2 q3
        rw [tw_bind, tw_writeBreak q1, tw_bind, tw_modE]
        refine tw_mono (ih (s := { s0 with column := 0, line := s0.line + 1, indention := true }) true leading none q1 q2 hp2 sb2
          (fun _ => ⟨rfl, rfl⟩) (fun h => by cases h) (by rw [← q3] at hw'; exact hw') (fun h => by cases h)) ?_
        intro _ t s' h
        rw [if_pos rfl] at h
        obtain ⟨b0, ls, k1, k2, rfl, k4, k5, k6⟩ := h
        exact ⟨b0, ls, k1, k2, rfl, k4, k5, k6⟩
      cases breaks with
      | true =>
        rw [if_neg (by simp)]
        refine tw_mono (fin s hl hd rfl) ?_
        rintro _ t s' ⟨b0, ls, k1, k2, rfl, k4, k5, k6⟩
        rw [if_pos rfl]
        refine ⟨c :: b0, ls, ?_, k2, by simp [breaksOut], by rw [k4]; rfl, ?_, ?_⟩
        · intro x hx
          rcases List.mem_cons.mp hx with rfl | hx
          · exact hk
          · exact k1 x hx
        · unfold FirstLine; rw [hdw]; exact k5
        · rw [hdw]; exact k6
      | false =>
        have last : ∀ (X t : Text), X = (if (!leading && c == 0xA && !isBlankz (nextC (cs.dropWhile isBreak))) = true then brkText (some lb) else []) →
            (∃ b0 ls, (∀ b ∈ b0, keptBreak b) ∧ LinesOk ls ∧ t = brkOut lb c ++ (breaksOut lb b0 ++ linesText lb d ls) ∧ cs = b0 ++ lineVal false ls ∧
              FirstLine cs ls ∧ (isBlankz (nextC (cs.dropWhile isBreak)) = false → ls ≠ [])) →
            ∃ l b ls, (∀ c ∈ l, isBreakz c = false) ∧ (∀ c ∈ b, keptBreak c) ∧ (b = [] → ls = []) ∧ LinesOk ls ∧
              X ++ t = l ++ (breaksOut lb b ++ linesText lb d ls) ∧ c :: cs = l ++ joinVal false leading (b.take 1) (b.drop 1) ls ∧
              (isBlankz (nextC (c :: cs)) = false → l ≠ [] ∧ nextC l = nextC (c :: cs)) := by
          rintro X t rfl ⟨b0, ls, k1, k2, rfl, k4, k5, k6⟩
          obtain ⟨b, j1, j2, j3, j4⟩ := join_breaks (lb := lb) (lead := leading) (c := c) k4 k5 k2 k6
          refine ⟨[], b, ls, by simp, ?_, fun h => absurd h j3, k2, ?_, by simpa using j4, ?_⟩
          · intro x hx
            rcases j2 x hx with rfl | rfl | h
            · exact .inl rfl
            · exact hk
            · exact k1 x h
          · rw [j1]; simp
          · intro h
            simp only [nextC] at h
            rw [hbz] at h; cases h
        simp only [Bool.not_false, Bool.true_and]
        split
        · rename_i hx
          rw [tw_putBreak]
          refine tw_mono (fin _ hl hd rfl) ?_
          intro _ t s' h
          rw [if_neg (by decide)]
          exact last _ t (by rw [if_pos hx, hl]) h
        · rename_i hx
          refine tw_mono (fin s hl hd rfl) ?_
          intro _ t s' h
          rw [if_neg (by decide)]
          exact last _ t (by rw [if_neg hx]) h
    | false =>
      have hz : isBreakz c = false := by unfold isBreakz; rw [hbk, p2]; rfl
      have hdw : (c :: cs).dropWhile isBreak = c :: cs := by rw [List.dropWhile_cons, if_neg (by rw [hbk]; decide)]
      have hcons : ∀ {l : Text}, (∀ c ∈ l, isBreakz c = false) → ∀ x ∈ c :: l, isBreakz x = false := by
        intro l h x hx
        rcases List.mem_cons.mp hx with rfl | hx
        · exact hz
        · exact h x hx
      rw [if_neg (by decide), tw_bind, tw_whenE]
      -- what follows a character that is written
      have fin : ∀ (s0 : Emitter) (ld : Bool) (n0 : Option Nat), s0.lineBreak = some lb → s0.indentCol = d → Narrow (s0.bestWidth - d) false n0 cs →
          (ld = true → ∃ k, n0 = some k ∧ s0.column + 1 = d + k) →
          tw (putC c) (fun _ t s1 => tw (do modE fun s => { s with indention := false }; foldedLoop cs false ld) (fun _ u _ =>
            ∃ l b ls, (∀ c ∈ l, isBreakz c = false) ∧ (∀ c ∈ b, keptBreak c) ∧ (b = [] → ls = []) ∧ LinesOk ls ∧
              t ++ u = c :: (l ++ (breaksOut lb b ++ linesText lb d ls)) ∧ cs = l ++ joinVal false ld (b.take 1) (b.drop 1) ls) s1) s0 := by
        intro s0 ld n0 q1 q2 q3 q4
        rw [tw_putC, tw_bind, tw_modE]
        refine tw_mono (ih (s := { s0 with column := s0.column + 1, indention := false }) false ld n0 q1 q2 hp2 sb2 (fun h => by cases h)
          (fun _ => rfl) q3 (fun _ => q4)) ?_
        intro _ t s' h
        rw [if_neg (by decide)] at h
        obtain ⟨l, b, ls, k1, k2, k3, k4, rfl, k6, _⟩ := h
        exact ⟨l, b, ls, k1, k2, k3, k4, rfl, k6⟩
      cases breaks with
      | true =>
        obtain ⟨hc0, hi0⟩ := hb rfl
        rw [if_pos rfl, tw_writeIndent' (needBreak_start hc0 hi0 hd h1), tw_bind, tw_getE, tw_bind]
        simp only [Bool.not_true, Bool.false_and, Bool.false_eq_true, if_false, if_true]
        have hw2 : ∃ n0, Narrow (s.bestWidth - d) false n0 cs ∧ (isBlank c = true → n0 = some 1) := by
          rw [narrow_cons, if_neg (by rw [hbk]; decide), if_pos rfl] at hw
          by_cases hbl : isBlank c = true
          · rw [if_pos hbl] at hw
            exact ⟨_, hw, fun _ => rfl⟩
          · rw [if_neg hbl] at hw
            exact ⟨_, hw, fun h => absurd h hbl⟩
        obtain ⟨n0, w1, w2⟩ := hw2
        refine tw_mono (fin _ (isBlank c) n0 hl hd w1 (fun h => ⟨1, w2 h, by show s.column + (s.indentCol - s.column) + 1 = d + 1; omega⟩)) ?_
        intro _ t s1 h
        refine tw_mono h ?_
        rintro _ u s' ⟨l, b, ls, k1, k2, k3, k4, k5, k6⟩
        refine ⟨[], (c :: l, b) :: ls, by simp, ⟨by simp, hcons k1, k2, k3, k4⟩, ?_, ?_, ?_, by simp⟩
        · rw [hd, hc0, List.nil_append, k5]
          simp [breaksOut, linesText]
        · simp only [List.nil_append, lineVal, nextC, List.cons_append]
          rw [← k6]
        · intro l' b' ls' he
          simp only [List.cons.injEq, Prod.mk.injEq] at he
          rw [hdw, ← he.1.1]; rfl
      | false =>
        rw [if_neg (by decide), tw_bind, tw_getE, tw_bind]
        simp only [Bool.not_false, Bool.true_and, Bool.false_eq_true, if_false, List.nil_append]
        have hi0 := hb' rfl
        rw [tw_ite]
        by_cases hfold : (isSpace c && !isSpace (nextC cs) && s.overWidth) = true
        · rw [if_pos hfold]
          simp only [Bool.and_eq_true, Bool.not_eq_true'] at hfold
          obtain ⟨⟨f1, f2⟩, f3⟩ := hfold
          have hc : c = 0x20 := by simpa [isSpace] using f1
          have hld : leading = false := by
            cases hle : leading with
            | false => rfl
            | true =>
              obtain ⟨k, rfl, hk⟩ := hn rfl hle
              rw [narrow_cons, if_neg (by rw [hbk]; decide), if_neg (by decide)] at hw
              have := hw.1 (by rw [f1, f2]; rfl)
              unfold Emitter.overWidth at f3
              simp only [decide_eq_true_eq] at f3
              rw [hk] at f3
              push_cast at this f3
              omega
          have hw2 : ∃ n0, Narrow (s.bestWidth - d) false n0 cs := by
            rw [narrow_cons, if_neg (by rw [hbk]; decide), if_neg (by decide)] at hw
            cases n with
            | none => exact ⟨_, hw⟩
            | some k => exact ⟨_, hw.2⟩
          obtain ⟨n0, w1⟩ := hw2
          rw [tw_writeIndent (by unfold Emitter.needBreak; simp [hi0]), tw_bind, tw_modE]
          refine tw_mono (ih (s := { s with column := s.indentCol, line := s.line + 1, whitespace := true, indention := false }) false leading n0 hl hd hp2 sb2
            (fun h => by cases h) (fun _ => rfl) w1 (fun _ h => by rw [hld] at h; cases h)) ?_
          intro _ t s' h
          rw [if_neg (by decide)] at h
          obtain ⟨l, b, ls, k1, k2, k3, k4, rfl, k6, k7⟩ := h
          have hnb : isBlankz (nextC cs) = false := by
            have := sb1 f1
            unfold isBlankz isBlank
            rw [this, f2]
            cases cs with
            | nil => revert this; decide
            | cons e cs =>
              obtain ⟨t1, _, _⟩ := printable_facts (hp2 e List.mem_cons_self)
              simp only [nextC]
              rw [t1]; rfl
          obtain ⟨j1, j2⟩ := k7 hnb
          have hbl : isBlank (nextC l) = false := by
            rw [j2]
            unfold isBlankz at hnb
            exact (Bool.or_eq_false_iff.mp hnb).1
          refine ⟨[], [0xA], (l, b) :: ls, by simp, (by intro x hx; simp at hx; exact .inl hx), (fun h => by cases h), ⟨j1, k1, k2, k3, k4⟩, ?_, ?_, ?_⟩
          · rw [breaksOut_one, hl, hd]
            simp [linesText]
          · rw [hld] at k6 ⊢
            simp only [List.nil_append, joinVal, hbl]
            rw [← k6, hc]
            rfl
          · intro h
            subst hc
            exact absurd (show isBlankz 0x20 = false from h) (by decide)
        · rw [if_neg hfold]
          have hw2 : ∃ n0, Narrow (s.bestWidth - d) false n0 cs ∧ (leading = true → ∃ k, n0 = some k ∧ s.column + 1 = d + k) := by
            rw [narrow_cons, if_neg (by rw [hbk]; decide), if_neg (by decide)] at hw
            cases n with
            | none =>
              refine ⟨_, hw, fun h => ?_⟩
              obtain ⟨k, h, _⟩ := hn rfl h
              cases h
            | some k =>
              refine ⟨_, hw.2, fun h => ?_⟩
              obtain ⟨k', h, h'⟩ := hn rfl h
              cases h
              exact ⟨_, rfl, by omega⟩
          obtain ⟨n0, w1, w2⟩ := hw2
          refine tw_mono (fin s leading n0 hl hd w1 w2) ?_
          intro _ t s1 h
          refine tw_mono h ?_
          rintro _ u s' ⟨l, b, ls, k1, k2, k3, k4, k5, k6⟩
          refine ⟨c :: l, b, ls, hcons k1, k2, k3, k4, ?_, ?_, fun _ => ⟨by simp, rfl⟩⟩
          · rw [k5]; rfl
          · rw [List.cons_append, ← k6]

end

/-! ### The whole scalar -/

/-- The indentation hint that is written. -/
def hintFor (s : Emitter) (v : Text) : Nat := if (isSpace (nextC v) || isBreak (nextC v)) = true then s.bestIndent.toNat else 0

theorem tw_writeHints {s : Emitter} {v : Text} (h1 : 2 ≤ s.bestIndent) {Q : Unit → Text → Emitter → Prop}
    (hQ : ∀ s' t, s'.lineBreak = s.lineBreak → s'.indent = s.indent → s'.bestWidth = s.bestWidth →
      t = incText (hintFor s v) ++ chompText (chompFor v) → Q () t s') : tw (writeHints v) Q s := by
  unfold writeHints
  have key : ∀ (s0 : Emitter) (X : Text), s0.lineBreak = s.lineBreak → s0.indent = s.indent → s0.bestWidth = s.bestWidth → X = incText (hintFor s v) →
      tw (do modE fun s => { s with openEnded := (chompHint v.reverse).2 }
             whenE (!(chompHint v.reverse).1.isEmpty) (writeIndicator (chompHint v.reverse).1 false false false)) (fun _ t s' => Q () (X ++ t) s') s0 := by
    rintro s0 X q1 q2 q3 rfl
    rw [tw_bind, tw_modE, tw_whenE, chompHint_text]
    cases hc : chompFor v with
    | clip =>
      rw [if_neg (by decide)]
      exact hQ _ _ q1 q2 q3 (by rw [hc]; rfl)
    | strip =>
      rw [if_pos (by decide), tw_writeIndicator]
      exact hQ _ _ q1 q2 q3 (by rw [hc]; rfl)
    | keep =>
      rw [if_pos (by decide), tw_writeIndicator]
      exact hQ _ _ q1 q2 q3 (by rw [hc]; rfl)
  rw [tw_bind, tw_whenE]
  split
  · rename_i hx
    rw [tw_bind, tw_getE, tw_writeIndicator]
    refine key _ _ rfl rfl rfl ?_
    unfold hintFor incText
    rw [if_pos hx]
    have : ¬ s.bestIndent.toNat = 0 := by omega
    rw [if_neg this]
    rfl
  · rename_i hx
    refine key _ _ rfl rfl rfl ?_
    unfold hintFor incText
    rw [if_neg hx]
    rfl

/-- What is written for a block scalar. -/
def BlockOut (literal : Bool) (s : Emitter) (lb : Break) (v t : Text) : Prop :=
  ∃ b0 ls, (∀ b ∈ b0, keptBreak b) ∧ LinesOk ls ∧ v = b0 ++ lineVal literal ls ∧
    t = lead s ++ ((if literal = true then 124 else 62) :: (incText (hintFor s v) ++ (chompText (chompFor v) ++ (brkText (some lb) ++
      (breaksOut lb b0 ++ linesText lb s.indentCol ls)))))

theorem tw_writeLiteral {s : Emitter} {lb : Break} {v : Text} (hl : s.lineBreak = some lb) (hi : 1 ≤ s.indentCol) (h2 : 2 ≤ s.bestIndent)
    (hp : ∀ c ∈ v, isPrintable c = true) : tw (writeLiteral v) (fun _ t _ => BlockOut true s lb v t) s := by
  unfold writeLiteral
  rw [tw_bind, tw_writeIndicator, tw_bind]
  refine tw_writeHints (by exact h2) fun s' t0 q1 q2 q3 q4 => ?_
  rw [tw_bind, tw_putBreak, tw_bind, tw_setWs]
  have hd : s'.indentCol = s.indentCol := by unfold Emitter.indentCol; rw [q2]
  refine tw_mono (tw_literalLoop (lb := lb) (d := s.indentCol) v true (by rw [← hl]; exact q1) hd hi hp (fun _ => ⟨rfl, rfl⟩)) ?_
  intro _ t _ h
  rw [if_pos rfl] at h
  obtain ⟨b0, ls, k1, k2, rfl, k4⟩ := h
  refine ⟨b0, ls, k1, k2, k4, ?_⟩
  have e1 : s'.lineBreak = some lb := q1.trans hl
  rw [e1, q4]
  unfold lead hintFor
  cases s.whitespace <;> simp

theorem tw_writeFolded {s : Emitter} {lb : Break} {v : Text} (hl : s.lineBreak = some lb) (hi : 1 ≤ s.indentCol) (h2 : 2 ≤ s.bestIndent)
    (hp : ∀ c ∈ v, isPrintable c = true) (hsb : NoSpaceBreak v) (hw : Narrow (s.bestWidth - s.indentCol) true none v) :
    tw (writeFolded v) (fun _ t _ => BlockOut false s lb v t) s := by
  unfold writeFolded
  rw [tw_bind, tw_writeIndicator, tw_bind]
  refine tw_writeHints (by exact h2) fun s' t0 q1 q2 q3 q4 => ?_
  rw [tw_bind, tw_putBreak, tw_bind, tw_setWs]
  have hd : s'.indentCol = s.indentCol := by unfold Emitter.indentCol; rw [q2]
  refine tw_mono (tw_foldedLoop (lb := lb) (d := s.indentCol) v true true none (by rw [← hl]; exact q1) hd hi hp hsb (fun _ => ⟨rfl, rfl⟩)
    (fun h => by cases h) (by rw [← show s'.bestWidth = s.bestWidth from q3] at hw; exact hw) (fun h => by cases h)) ?_
  intro _ t _ h
  rw [if_pos rfl] at h
  obtain ⟨b0, ls, k1, k2, rfl, k4, _⟩ := h
  refine ⟨b0, ls, k1, k2, k4, ?_⟩
  have e1 : s'.lineBreak = some lb := q1.trans hl
  rw [e1, q4]
  unfold lead hintFor
  cases s.whitespace <;> simp

end LibYaml
