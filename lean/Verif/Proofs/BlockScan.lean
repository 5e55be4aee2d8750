import Verif.Proofs.PlainScan

/-!
# Scanning block scalars that are made of known lines
-/

namespace LibYaml

variable {m : Mark}

/-- A line of a block scalar: its characters after the indentation, and the line breaks that follow it. -/
abbrev BLine := Text × Text

/-- The lines are not empty and are separated by line breaks; there may be none after the last line. -/
def LinesOk : List BLine → Prop
  | [] => True
  | (l, b) :: ls => l ≠ [] ∧ (∀ c ∈ l, isBreakz c = false) ∧ (∀ c ∈ b, keptBreak c) ∧ (b = [] → ls = []) ∧ LinesOk ls

/-- The lines as they are written. -/
def linesText (lb : Break) (d : Nat) : List BLine → Text
  | [] => []
  | (l, b) :: ls => List.replicate d 0x20 ++ (l ++ (breaksOut lb b ++ linesText lb d ls))

/-- What `blockLines` computes: the string and the breaks still to be added. -/
def blockValue (literal : Bool) : Bool → Text → Text → Text → List BLine → Text × Text × Text
  | _, s, p, q, [] => (s, p, q)
  | lead, s, p, q, (l, b) :: ls =>
    blockValue literal (isBlank (nextC l)) (blockJoin literal lead (isBlank (nextC l)) s p q ++ l) (b.take 1) (b.drop 1) ls

theorem lw_readWhile {p : Nat → Bool} {n : Nat} {s l : Text} {r : Text} (hl : ∀ c ∈ l, p c = true) (hr : ∃ c t, r = c :: t ∧ p c = false)
    (hn : l.length < n) {Q : Text → Mark → Text → Prop}
    (hQ : Q (s ++ l) { m with index := m.index + l.length, column := m.column + l.length } r) : lw (readWhile p n s) Q m (l ++ r) := by
  induction l generalizing n s m with
  | nil =>
    cases n with
    | zero => omega
    | succ n =>
      obtain ⟨c, t, rfl, hp⟩ := hr
      unfold readWhile
      rw [List.nil_append, lw_bind, lw_peek0, hp, lw_ite, if_neg (by decide), lw_pure]
      simpa using hQ
  | cons c l ih =>
    cases n with
    | zero => simp at hn
    | succ n =>
      unfold readWhile
      rw [List.cons_append, lw_bind, lw_peek0, hl c List.mem_cons_self, lw_ite, if_pos rfl, lw_bind, lw_readC, lw_bind, lw_cache1]
      refine ih (n := n) (fun x hx => hl x (List.mem_cons_of_mem _ hx)) (by simpa using hn) ?_
      have e1 : m.index + 1 + l.length = m.index + (c :: l).length := by simp only [List.length_cons]; omega
      have e2 : m.column + 1 + l.length = m.column + (c :: l).length := by simp only [List.length_cons]; omega
      simpa only [e1, e2, List.append_assoc, List.singleton_append] using hQ

/-- Indentation up to the column `d`, or all of it. -/
theorem lw_skipIndent {indent : Int} {n j d : Nat} {r : Text} (hcol : m.column + j = d) (hi : indent = 0 ∨ (d : Int) ≤ indent)
    (hr : (indent ≠ 0 ∧ (d : Int) = indent ∧ r ≠ []) ∨ ∃ c t, r = c :: t ∧ isSpace c = false) (hn : j < n) {Q : Unit → Mark → Text → Prop}
    (hQ : Q () { m with index := m.index + j, column := d } r) : lw (skipIndent indent n) Q m (List.replicate j 0x20 ++ r) := by
  induction j generalizing n m with
  | zero =>
    cases n with
    | zero => omega
    | succ n =>
      unfold skipIndent
      rw [lw_bind, lw_get, lw_ite]
      have hm : m.column = d := by omega
      have hQ' : Q () m r := by
        have : m = { m with index := m.index + 0, column := d } := by subst hm; rfl
        rw [this]; exact hQ
      simp only [List.replicate_zero, List.nil_append]
      by_cases hc : indent = 0 ∨ (m.column : Int) < indent
      · rw [if_pos hc]
        rcases hr with ⟨h1, h2, _⟩ | ⟨c, t, rfl, hs⟩
        · exfalso; rcases hc with h | h <;> omega
        · rw [lw_bind, lw_peek0, hs, lw_ite, if_neg (by decide), lw_pure]
          exact hQ'
      · rw [if_neg hc, lw_pure]
        exact hQ'
  | succ j ih =>
    cases n with
    | zero => omega
    | succ n =>
      unfold skipIndent
      rw [lw_bind, lw_get, lw_ite, if_pos (by rcases hi with h | h; exact .inl h; exact .inr (by omega)), List.replicate_succ, List.cons_append, lw_bind, lw_peek0,
        lw_ite, if_pos (by decide), lw_bind, lw_skipC, lw_bind, lw_cache1]
      refine ih (n := n) (by show m.column + 1 + j = d; omega) (by omega) ?_
      have e1 : m.index + 1 + j = m.index + (j + 1) := by omega
      simpa only [e1] using hQ

/-- What may follow the breaks of a block scalar: a further line, or something less indented. -/
def AfterBreaks (indent : Int) (j : Nat) (r : Text) : Prop :=
  (∃ c t, r = c :: t ∧ isBreak c = false ∧ (((j : Int) = indent ∧ indent ≠ 0) ∨ (indent = 0 ∨ (j : Int) < indent) ∧ isBlank c = false))

theorem lw_blockBreaksLoop {f n j mi : Nat} {start stop : Mark} {indent : Int} {lb : Break} {bs s : Text} {r : Text} (h0 : m.column = 0)
    (hb : ∀ b ∈ bs, keptBreak b) (hr : AfterBreaks indent j r) (hz : indent = 0 → bs = []) (hf : (breaksOut lb bs).length + j < f) (hn : (breaksOut lb bs).length < n)
    {Q : Nat × Text × Mark → Mark → Text → Prop}
    (hQ : ∀ (m' : Mark) mi' stop', m'.column = j → (mi' : Nat) = max mi j ∨ indent ≠ 0 → Q (mi', s ++ bs, stop') m' r) :
    lw (blockBreaksLoop f start indent n mi s stop) Q m (breaksOut lb bs ++ (List.replicate j 0x20 ++ r)) := by
  induction bs generalizing n m mi s stop with
  | nil =>
    obtain ⟨c, t, rfl, hc1, hc2⟩ := hr
    cases n with
    | zero => omega
    | succ n =>
      simp only [breaksOut, List.nil_append, List.length_nil, Nat.zero_add] at hf ⊢
      unfold blockBreaksLoop
      rw [lw_bind, lw_cache1, lw_bind]
      refine lw_skipIndent (d := j) (by omega) (by rcases hc2 with ⟨h, _⟩ | ⟨h | h, _⟩ <;> omega) ?_ hf ?_
      · rcases hc2 with ⟨h1, h2⟩ | ⟨_, h2⟩
        · exact .inl ⟨h2, h1, by simp⟩
        · refine .inr ⟨c, t, rfl, ?_⟩
          unfold isBlank at h2
          exact (Bool.or_eq_false_iff.mp h2).1
      · rw [lw_bind, lw_get, lw_bind, lw_peek0, lw_ite]
        have ht : ¬ ((indent = 0 ∨ ((j : Nat) : Int) < indent) ∧ isTab c = true) := by
          rintro ⟨h1, h2⟩
          rcases hc2 with ⟨h3, h4⟩ | ⟨_, h3⟩
          · rcases h1 with h1 | h1 <;> omega
          · unfold isBlank at h3
            rw [h2] at h3
            simp at h3
        rw [if_neg ht, hc1, lw_ite, if_neg (by decide), lw_pure]
        have := hQ { m with index := m.index + j, column := j } (if j > mi then j else mi) stop rfl (.inl (by split <;> omega))
        simpa using this
  | cons b bs ih =>
    have hb1 := hb b List.mem_cons_self
    have hb2 : ∀ b ∈ bs, keptBreak b := fun x hx => hb x (List.mem_cons_of_mem _ hx)
    have hi0 : indent ≠ 0 := fun h => by have := hz h; cases this
    have hlen := brkOut_length (lb := lb) (b := b)
    simp only [breaksOut, List.length_append] at hf hn
    cases n with
    | zero => omega
    | succ n =>
      obtain ⟨c, t, e, hc1, hc2⟩ := brkOut_head (lb := lb) hb1 (breaksOut lb bs ++ (List.replicate j 0x20 ++ r))
      unfold blockBreaksLoop
      simp only [breaksOut, List.append_assoc]
      rw [lw_bind, lw_cache1, lw_bind, e]
      have hsp : isBlank c = false ∧ isTab c = false ∧ isSpace c = false := by
        refine ⟨hc1, ?_⟩
        unfold isBlank at hc1
        exact (Bool.or_eq_false_iff.mp hc1).symm
      have hi : indent = 0 ∨ (m.column : Int) ≤ indent := by
        obtain ⟨_, _, _, _, h⟩ := hr
        rw [h0]
        rcases h with ⟨h1, _⟩ | ⟨h | h, _⟩
        · right; omega
        · exact .inl h
        · right; omega
      refine lw_skipIndent (j := 0) (d := m.column) rfl hi (.inr ⟨c, t, rfl, hsp.2.2⟩) (by omega) ?_
      rw [lw_bind, lw_get, lw_bind, lw_peek0, lw_ite, if_neg (by rw [hsp.2.1]; simp), hc2, lw_ite, if_pos rfl, lw_bind, lw_cache2, lw_bind, ← e]
      have hab : AfterBreak lb (breaksOut lb bs ++ (List.replicate j 0x20 ++ r)) := by
        refine afterBreak_breaks hb2 ?_
        cases j with
        | succ j => exact afterBreak_spaces (by omega)
        | zero =>
          obtain ⟨c', r', rfl, hr1, _⟩ := hr
          refine ⟨by simp, fun _ hx => ?_⟩
          simp only [List.replicate_zero, List.nil_append, List.head?_cons, Option.some.injEq] at hx
          subst hx
          exact absurd hr1 (by decide)
      refine lw_readLine' hb1 hab fun k => ?_
      rw [lw_bind, lw_get]
      refine ih (n := n) rfl hb2 (fun h => absurd h hi0) (by omega) (by omega) fun m' mi' stop' h1 h2 => ?_
      have := hQ m' mi' stop' h1 (.inr hi0)
      simpa only [List.append_assoc, List.singleton_append] using this

theorem lw_blockBreaks {f j : Nat} {start : Mark} {pi indent : Int} {lb : Break} {bs s : Text} {r : Text} (h0 : m.column = 0)
    (hb : ∀ b ∈ bs, keptBreak b) (hr : AfterBreaks indent j r) (hz : indent = 0 → bs = []) (hf : (breaksOut lb bs).length + j < f)
    {Q : Int × Text × Mark → Mark → Text → Prop}
    (hQ : ∀ (m' : Mark) stop', m'.column = j → Q (if indent = 0 then foundIndent pi j else indent, s ++ bs, stop') m' r) :
    lw (blockBreaks f start pi indent s) Q m (breaksOut lb bs ++ (List.replicate j 0x20 ++ r)) := by
  unfold blockBreaks
  rw [lw_bind, lw_get, lw_bind]
  refine lw_blockBreaksLoop h0 hb hr hz hf (by omega) fun m' mi' stop' h1 h2 => ?_
  simp only []
  rw [lw_pure]
  have := hQ m' stop' h1
  by_cases hi : indent = 0
  · rcases h2 with h2 | h2
    · rw [if_pos hi] at this ⊢
      rw [h2, Nat.zero_max]; exact this
    · exact absurd hi h2
  · rw [if_neg hi] at this ⊢; exact this

/-- The text behind the indentation of the first of these lines. -/
def lineTail (lb : Break) (d : Nat) (ls : List BLine) (t : Text) : Text :=
  match ls with
  | [] => t
  | (l, b) :: ls => l ++ (breaksOut lb b ++ (linesText lb d ls ++ t))

/-- All lines are ended by line breaks. -/
def Closed (ls : List BLine) : Prop := ∀ x ∈ ls, x.2 ≠ []

/-- The characters after the lines: `k` spaces, fewer than the indentation, and something else. -/
theorem linesText_head {lb : Break} {d k : Nat} {ls : List BLine} {t : Text} (hd : 0 < d) (hk : k < d) (hok : LinesOk ls) (ht : Stops t) :
    ∃ j r, linesText lb d ls ++ (List.replicate k 0x20 ++ t) = List.replicate j 0x20 ++ r ∧
      r = lineTail lb d ls (if ls = [] then t else List.replicate k 0x20 ++ t) ∧ (j = if ls = [] then k else d) ∧ AfterBreaks d j r := by
  cases ls with
  | nil =>
    obtain ⟨c, r, rfl, h1, h2⟩ := ht
    exact ⟨k, c :: r, rfl, rfl, rfl, c, r, rfl, h2, .inr ⟨.inr (by omega), h1⟩⟩
  | cons x ls =>
    obtain ⟨l, b⟩ := x
    refine ⟨d, _, ?_, rfl, rfl, ?_⟩
    · simp [linesText, lineTail]
    · obtain ⟨h1, h2, _⟩ := hok
      cases l with
      | nil => exact absurd rfl h1
      | cons c l =>
        have := h2 c List.mem_cons_self
        unfold isBreakz at this
        exact ⟨c, _, rfl, (Bool.or_eq_false_iff.mp this).1, .inl ⟨rfl, by omega⟩⟩

theorem lw_blockLines {f n d k : Nat} {start stop : Mark} {pi : Int} {literal lead : Bool} {lb : Break} {ls : List BLine} {s p q t : Text}
    (hd : 0 < d) (hk : k < d) (hok : LinesOk ls) (hcl : Closed ls) (ht : Stops t)
    (hf : (lineTail lb d ls (if ls = [] then t else List.replicate k 0x20 ++ t)).length < f) (hn : (linesText lb d ls).length < n)
    (hcol : m.column = if ls = [] then k else d)
    {Q : Text × Text × Text × Mark → Mark → Text → Prop}
    (hQ : ∀ (m' : Mark) stop', m'.column = k → Q ((blockValue literal lead s p q ls).1, (blockValue literal lead s p q ls).2.1, (blockValue literal lead s p q ls).2.2, stop') m' t) :
    lw (blockLines f start pi literal d n lead s p q stop) Q m (lineTail lb d ls (if ls = [] then t else List.replicate k 0x20 ++ t)) := by
  induction n generalizing ls lead s p q stop m with
  | zero => omega
  | succ n ih =>
    cases ls with
    | nil =>
      rw [if_pos rfl] at hcol ⊢
      unfold blockLines
      rw [lw_bind, lw_get, lw_ite, if_neg (by rw [hcol]; omega), lw_pure]
      exact hQ m stop hcol
    | cons x ls =>
      obtain ⟨l, b⟩ := x
      rw [if_neg (by simp)] at hcol hf ⊢
      unfold blockLines
      rw [lw_bind, lw_get, lw_ite, if_pos (by rw [hcol])]
      obtain ⟨h1, h2, h3, h4, h5⟩ := hok
      have hbne : b ≠ [] := hcl (l, b) List.mem_cons_self
      have hcl2 : Closed ls := fun x hx => hcl x (List.mem_cons_of_mem _ hx)
      obtain ⟨j, r, e, er, ej, haf⟩ := linesText_head (lb := lb) hd hk h5 ht
      simp only [lineTail] at hf ⊢
      rw [e] at hf ⊢
      cases l with
      | nil => exact absurd rfl h1
      | cons c l =>
        have hc := h2 c List.mem_cons_self
        have hz : isZ c = false := by unfold isBreakz at hc; exact (Bool.or_eq_false_iff.mp hc).2
        have e0 : (c :: l) ++ (breaksOut lb b ++ (List.replicate j 0x20 ++ r)) = c :: (l ++ (breaksOut lb b ++ (List.replicate j 0x20 ++ r))) := rfl
        rw [lw_bind, e0, lw_peek0, hz, lw_ite, if_neg (by decide), lw_bind, ← e0]
        obtain ⟨x, y, ex, hx1, hx2⟩ := breaksOut_head (lb := lb) (r := List.replicate j 0x20 ++ r) hbne h3
        have hlen : (c :: l).length + ((breaksOut lb b).length + (j + r.length)) < f := by
          simpa only [List.length_append, List.length_replicate] using hf
        refine lw_readWhile (fun y hy => by rw [h2 y hy]; rfl) ⟨x, y, ex, ?_⟩ (by omega) ?_
        · unfold isBreakz; rw [hx2]; rfl
        · rw [lw_bind, lw_cache2, lw_bind]
          cases b with
          | nil => exact absurd rfl hbne
          | cons b1 bs =>
            have hb1 := h3 b1 List.mem_cons_self
            have hb2 : ∀ b ∈ bs, keptBreak b := fun x hx => h3 x (List.mem_cons_of_mem _ hx)
            simp only [breaksOut, List.append_assoc, List.length_append] at hlen ⊢
            have hab : AfterBreak lb (breaksOut lb bs ++ (List.replicate j 0x20 ++ r)) := by
              refine afterBreak_breaks hb2 ?_
              cases j with
              | succ j => exact afterBreak_spaces (by omega)
              | zero =>
                obtain ⟨c', r', rfl, hr1, _⟩ := haf
                refine ⟨by simp, fun _ hx => ?_⟩
                simp only [List.replicate_zero, List.nil_append, List.head?_cons, Option.some.injEq] at hx
                subst hx
                exact absurd hr1 (by decide)
            refine lw_readLine' hb1 hab fun i => ?_
            rw [lw_bind]
            refine lw_blockBreaks rfl hb2 haf (fun h => by omega) (by omega) fun m' stop' hm' => ?_
            simp only []
            rw [if_neg (by omega), er]
            refine ih h5 hcl2 ?_ ?_ (by rw [hm', ej]) ?_
            · rw [← er]; omega
            · simp only [linesText, List.length_append, List.length_replicate] at hn; omega
            · intro m2 stop2 hm2
              have := hQ m2 stop2 hm2
              simpa [blockValue, nextC] using this

/-- The indentation hint. -/
def incText (inc : Nat) : Text := if inc = 0 then [] else [48 + inc]

/-- The chomping indicator. -/
def chompText : Chomp → Text
  | .strip => [45]
  | .clip => []
  | .keep => [43]

/-- Skipping a line break written by the emitter. -/
theorem lw_skipLine {lb : Break} {r : Text} (hr : AfterBreak lb r) {Q : Unit → Mark → Text → Prop}
    (hQ : ∀ k, Q () { index := k, line := m.line + 1, column := 0 } r) : lw skipLine Q m (brkText (some lb) ++ r) := by
  obtain ⟨h1, h2⟩ := hr
  unfold skipLine
  cases r with
  | nil => exact absurd rfl h1
  | cons d r =>
    cases lb with
    | cr =>
      simp only [brkText, List.cons_append, List.nil_append]
      rw [lw_bind, lw_peek0, lw_ite, if_pos (by decide), lw_bind, lw_peek1 (by omega)]
      rw [if_neg (by simpa using h2 rfl), lw_passBreak1]
      exact hQ _
    | ln =>
      simp only [brkText, List.cons_append, List.nil_append]
      rw [lw_bind, lw_peek0, lw_ite, if_neg (by decide), lw_ite, if_pos (by decide), lw_passBreak1]
      exact hQ _
    | crln =>
      simp only [brkText, List.cons_append, List.nil_append]
      rw [lw_bind, lw_peek0, lw_ite, if_pos (by decide), lw_bind, lw_peek1 (by omega)]
      rw [if_pos (by decide), lw_passBreak2]
      exact hQ _

theorem lw_finishLine {f : Nat} {ctx : String} {start : Mark} {lb : Break} {r : Text} (hf : 0 < f) (hr : AfterBreak lb r) {Q : Unit → Mark → Text → Prop}
    (hQ : ∀ k, Q () { index := k, line := m.line + 1, column := 0 } r) : lw (finishLine f ctx start) Q m (brkText (some lb) ++ r) := by
  obtain ⟨c, t, e, hc1, hc2⟩ := brkOut_head (lb := lb) (b := 0xA) (.inl rfl) r
  have e : brkText (some lb) ++ r = c :: t := e
  have h35 : c ≠ 35 := by rintro rfl; exact absurd hc2 (by decide)
  cases f with
  | zero => omega
  | succ f =>
    unfold finishLine skipWhile skipComment
    rw [e, lw_bind, lw_cache1, lw_bind, lw_bind, lw_peek0, hc1, lw_ite, if_neg (by decide), lw_pure, lw_bind, lw_bind, lw_peek0, lw_ite,
      if_neg (by simpa using h35), lw_pure, lw_bind, lw_peek0]
    have hz : isBreakz c = true := by unfold isBreakz; rw [hc2]; rfl
    rw [hz, lw_ite, if_pos rfl, hc2, lw_ite, if_pos rfl, lw_bind, lw_cache2, ← e]
    exact lw_skipLine hr hQ

theorem lw_scanBlockHeader {start : Mark} {inc : Nat} {chomp : Chomp} {c : Nat} {r : Text} (hi : inc ≤ 9) (hc : isBreak c = true)
    {Q : Chomp × Nat → Mark → Text → Prop} (hQ : ∀ m', Q (chomp, inc) m' (c :: r)) :
    lw (scanBlockHeader start) Q m (incText inc ++ (chompText chomp ++ c :: r)) := by
  have hcc : chompOf c = none ∧ isDigit c = false := by
    unfold isBreak at hc
    simp only [Bool.or_eq_true, beq_iff_eq] at hc
    rcases hc with (((h | h) | h) | h) | h <;> subst h <;> decide
  unfold scanBlockHeader
  rw [lw_bind, lw_cache1, lw_bind]
  unfold incText
  by_cases h0 : inc = 0
  · subst h0
    rw [if_pos rfl, List.nil_append]
    have inc0 : ∀ (q : Mark) (R : Nat → Mark → Text → Prop), R 0 q (c :: r) → lw (scanIncrement start) R q (c :: r) := by
      intro q R h
      unfold scanIncrement
      rw [lw_bind, lw_peek0, hcc.2, lw_ite, if_neg (by decide), lw_pure]
      exact h
    cases chomp with
    | strip =>
      simp only [chompText, List.cons_append, List.nil_append]
      rw [lw_peek0]
      show lw (do skipC; cacheC 1; let increment ← scanIncrement start; pure (Chomp.strip, increment)) Q m _
      rw [lw_bind, lw_skipC, lw_bind, lw_cache1, lw_bind]
      exact inc0 _ _ (hQ _)
    | keep =>
      simp only [chompText, List.cons_append, List.nil_append]
      rw [lw_peek0]
      show lw (do skipC; cacheC 1; let increment ← scanIncrement start; pure (Chomp.keep, increment)) Q m _
      rw [lw_bind, lw_skipC, lw_bind, lw_cache1, lw_bind]
      exact inc0 _ _ (hQ _)
    | clip =>
      simp only [chompText, List.nil_append]
      rw [lw_peek0, hcc.1]
      simp only []
      rw [lw_bind]
      refine inc0 _ _ ?_
      rw [lw_ite, if_pos rfl, lw_pure]
      exact hQ _
  · rw [if_neg h0]
    simp only [List.cons_append, List.nil_append]
    have hd : chompOf (48 + inc) = none ∧ isDigit (48 + inc) = true ∧ (48 + inc == c! '0') = false ∧ asDigit (48 + inc) = inc := by
      have : inc = 1 ∨ inc = 2 ∨ inc = 3 ∨ inc = 4 ∨ inc = 5 ∨ inc = 6 ∨ inc = 7 ∨ inc = 8 ∨ inc = 9 := by omega
      rcases this with h | h | h | h | h | h | h | h | h <;> subst h <;> decide
    rw [lw_peek0, hd.1]
    simp only []
    rw [lw_bind]
    unfold scanIncrement
    rw [lw_bind, lw_peek0, hd.2.1, lw_ite, if_pos rfl, hd.2.2.1, lw_ite, if_neg (by decide), lw_bind, lw_skipC, lw_pure, hd.2.2.2, lw_ite, if_neg h0, lw_bind,
      lw_cache1, lw_bind]
    cases chomp with
    | strip =>
      simp only [chompText, List.cons_append, List.nil_append]
      rw [lw_peek0]
      show lw (do skipC; pure (Chomp.strip, inc)) Q _ _
      rw [lw_bind, lw_skipC, lw_pure]
      exact hQ _
    | keep =>
      simp only [chompText, List.cons_append, List.nil_append]
      rw [lw_peek0]
      show lw (do skipC; pure (Chomp.keep, inc)) Q _ _
      rw [lw_bind, lw_skipC, lw_pure]
      exact hQ _
    | clip =>
      simp only [chompText, List.nil_append]
      rw [lw_peek0, hcc.1]
      simp only []
      rw [lw_pure]
      exact hQ _

/-- The indentation of the content: given by a hint, or found from a first line that does not begin with a blank. -/
def IndentFound (pi : Int) (d inc : Nat) (b0 : Text) (ls : List BLine) : Prop :=
  (inc = 0 ∧ b0 = [] ∧ pi + 1 ≤ d ∧ ∃ c l b ls', ls = (c :: l, b) :: ls' ∧ isBlank c = false) ∨
  (1 ≤ inc ∧ inc ≤ 9 ∧ (d : Int) = if 0 ≤ pi then pi + inc else inc)

/-- The text of a block scalar and what follows it. -/
def blockText (literal : Bool) (lb : Break) (d inc : Nat) (chomp : Chomp) (b0 : Text) (ls : List BLine) (k : Nat) (t : Text) : Text :=
  (if literal = true then 124 else 62) :: (incText inc ++ (chompText chomp ++ (brkText (some lb) ++
    (breaksOut lb b0 ++ (linesText lb d ls ++ (List.replicate k 0x20 ++ t))))))

theorem lw_scanBlockScalar {f d k inc : Nat} {pi : Int} {literal : Bool} {lb : Break} {chomp : Chomp} {b0 t : Text} {ls : List BLine}
    (hd : 0 < d) (hk : k < d) (hb0 : ∀ b ∈ b0, keptBreak b) (hok : LinesOk ls) (hcl : Closed ls) (ht : Stops t) (hi : IndentFound pi d inc b0 ls)
    (hf : (blockText literal lb d inc chomp b0 ls k t).length < f) :
    lw (scanBlockScalar f pi literal) (fun tok m' cs => tok.data = .scalar (chompTail chomp (blockValue literal false [] [] b0 ls).1
        (blockValue literal false [] [] b0 ls).2.1 (blockValue literal false [] [] b0 ls).2.2) (if literal then .literal else .folded) ∧ cs = t ∧
        m'.column = k) m
      (blockText literal lb d inc chomp b0 ls k t) := by
  obtain ⟨j, r, e, er, ej, haf⟩ := linesText_head (lb := lb) hd hk hok ht
  unfold blockText at hf ⊢
  rw [e] at hf ⊢
  have hab : AfterBreak lb (breaksOut lb b0 ++ (List.replicate j 0x20 ++ r)) := by
    refine afterBreak_breaks hb0 ?_
    cases j with
    | succ j => exact afterBreak_spaces (by omega)
    | zero =>
      obtain ⟨c', r', rfl, hr1, _⟩ := haf
      refine ⟨by simp, fun _ hx => ?_⟩
      simp only [List.replicate_zero, List.nil_append, List.head?_cons, Option.some.injEq] at hx
      subst hx
      exact absurd hr1 (by decide)
  obtain ⟨c, x, ec, hc1, hc2⟩ := brkOut_head (lb := lb) (b := 0xA) (.inl rfl) (breaksOut lb b0 ++ (List.replicate j 0x20 ++ r))
  have ec : brkText (some lb) ++ (breaksOut lb b0 ++ (List.replicate j 0x20 ++ r)) = c :: x := ec
  have hlen : (breaksOut lb b0).length + (j + r.length) < f := by
    simp only [List.length_cons, List.length_append, List.length_replicate] at hf; omega
  have hl2 : (linesText lb d ls).length + k + t.length = j + r.length := by
    have := congrArg List.length e
    simp only [List.length_append, List.length_replicate] at this; omega
  unfold scanBlockScalar
  rw [lw_bind, lw_get, lw_bind, lw_skipC, lw_bind, ec]
  refine lw_scanBlockHeader (by rcases hi with h | h <;> omega) hc2 fun m1 => ?_
  simp only []
  rw [lw_bind, ← ec]
  refine lw_finishLine (by omega) hab fun k1 => ?_
  rw [lw_bind]
  have rest : ∀ (m2 : Mark) (stop : Mark), m2.column = j → lw (do
      cacheC 1
      let (s, leadingBreak, trailingBreaks, stop) ← blockLines f m pi literal (d : Int) f false [] [] b0 stop
      pure { data := .scalar (chompTail chomp s leadingBreak trailingBreaks) (if literal then .literal else .folded), start := m, stop := stop : Token })
      (fun tok m' cs => tok.data = .scalar (chompTail chomp (blockValue literal false [] [] b0 ls).1
        (blockValue literal false [] [] b0 ls).2.1 (blockValue literal false [] [] b0 ls).2.2) (if literal then .literal else .folded) ∧ cs = t ∧
        m'.column = k) m2 r := by
    intro m2 stop hm2
    rw [lw_bind, lw_cache1, lw_bind, er]
    refine lw_blockLines hd hk hok hcl ht (by rw [← er]; omega) (by omega) (by rw [hm2, ej]) fun m' stop' hm' => ?_
    simp only []
    rw [lw_pure]
    exact ⟨rfl, rfl, hm'⟩
  rcases hi with ⟨rfl, rfl, hpi, c0, l, b, ls', rfl, hc0⟩ | ⟨h1, h2, h3⟩
  · rw [if_pos rfl]
    have hj : j = d := by rw [ej, if_neg (by simp)]
    subst hj
    have haf0 : AfterBreaks 0 j r := by
      rw [if_neg (by simp)] at er
      obtain ⟨q1, q2, q3, q4, _⟩ := haf
      refine ⟨q1, q2, q3, q4, .inr ⟨.inl rfl, ?_⟩⟩
      rw [er] at q3
      simp only [lineTail, List.cons_append, List.cons.injEq] at q3
      rw [← q3.1]; exact hc0
    refine lw_blockBreaks rfl hb0 haf0 (fun _ => rfl) (by omega) fun m2 stop hm2 => ?_
    simp only [if_true]
    have hfi : foundIndent pi j = (j : Int) := by
      unfold foundIndent
      simp only []
      split <;> split <;> omega
    rw [hfi]
    exact rest m2 stop hm2
  · have hind : (if inc = 0 then (0 : Int) else if pi ≥ 0 then pi + inc else inc) = d := by
      rw [if_neg (by omega), h3]
    rw [hind]
    refine lw_blockBreaks rfl hb0 haf (fun h => by omega) (by omega) fun m2 stop hm2 => ?_
    simp only []
    rw [if_neg (by omega)]
    exact rest m2 stop hm2

end LibYaml
