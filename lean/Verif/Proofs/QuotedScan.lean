import Verif.Proofs.Go

/-!
# Scanning quoted scalars that are made of known pieces

A quoted scalar as the emitter writes it is a sequence of pieces: literal characters, escape sequences, spaces, and line breaks followed by
indentation. The scanner reads exactly the values of the pieces.
-/

namespace LibYaml

/-- A piece of the text between quotes. -/
inductive Piece where
  /-- a character standing for itself, not blank -/
  | lit (c : Nat)
  /-- an escape sequence -/
  | esc (t : Text) (c : Nat)
  /-- a space standing for itself -/
  | sp
  /-- line breaks followed by indentation -/
  | gap (bs : Text) (n : Nat)

/-- What line breaks stand for: a single LF is a space, otherwise the first LF is dropped. -/
def foldBreaks : Text → Text
  | [] => []
  | b :: bs => if b = 0xA then (if bs = [] then [0x20] else bs) else b :: bs

/-- The line breaks as written. -/
def breaksOut (lb : Break) : Text → Text
  | [] => []
  | b :: bs => brkOut lb b ++ breaksOut lb bs

/-- The text of a piece. -/
def Piece.text (lb : Break) : Piece → Text
  | .lit c => [c]
  | .esc t _ => t
  | .sp => [0x20]
  | .gap bs n => breaksOut lb bs ++ List.replicate n 0x20

/-- The value of a piece. -/
def Piece.value : Piece → Text
  | .lit c => [c]
  | .esc _ c => [c]
  | .sp => [0x20]
  | .gap bs _ => foldBreaks bs

/-- 0: not blank, 1: a space, 2: line breaks. -/
def Piece.kind : Piece → Nat
  | .lit _ => 0
  | .esc _ _ => 0
  | .sp => 1
  | .gap _ _ => 2

def pText (lb : Break) : List Piece → Text
  | [] => []
  | p :: ps => p.text lb ++ pText lb ps

def pValue : List Piece → Text
  | [] => []
  | p :: ps => p.value ++ pValue ps

/-- A Unicode scalar value. -/
def UScalar (c : Nat) : Prop := c ≤ 0x10FFFF ∧ ¬ (0xD800 ≤ c ∧ c ≤ 0xDFFF)

/-- The piece may be used between these quotes. -/
def Piece.Ok (single : Bool) : Piece → Prop
  | .lit c => isBlankz c = false ∧ (if single = true then c ≠ 39 else c ≠ 34 ∧ c ≠ 92)
  | .esc t c =>
    if single = true then t = [39, 39] ∧ c = 39
    else (t = [92, 32] ∧ c = 32) ∨ (t = 92 :: escapeText c ∧ UScalar c)
  | .sp => True
  | .gap bs n => bs ≠ [] ∧ (∀ b ∈ bs, keptBreak b) ∧ 1 ≤ n

/-- The pieces are good and may follow a piece of kind `k`: no line break after a blank, no space after a line break. -/
def Pieces (single : Bool) : Nat → List Piece → Prop
  | _, [] => True
  | k, p :: ps => p.Ok single ∧ (p.kind = 2 → k = 0) ∧ (p.kind = 1 → k ≠ 2) ∧ Pieces single p.kind ps

theorem Pieces.weaken {single : Bool} {k : Nat} {ps : List Piece} (h : Pieces single k ps) : Pieces single 0 ps := by
  cases ps with
  | nil => trivial
  | cons p ps => exact ⟨h.1, fun _ => rfl, fun _ => by decide, h.2.2.2⟩

/-! ### Escapes -/

theorem hexChar_facts : ∀ d < 16, isHex (hexChar d) = true ∧ asHex (hexChar d) = d ∧ hexChar d < 0x80 := by decide

theorem hexDigits_lt (c n : Nat) : ∀ x ∈ hexDigits c n, x < 0x80 := by
  induction n with
  | zero => intro x hx; cases hx
  | succ n ih =>
    intro x hx
    rcases List.mem_cons.mp hx with rfl | hx
    · exact (hexChar_facts _ (by have := Nat.and_le_right (n := c >>> (4 * n)) (m := 0x0F); omega)).2.2
    · exact ih x hx

theorem hexDigits_length (c n : Nat) : (hexDigits c n).length = n := by
  induction n with
  | zero => rfl
  | succ n ih => simp [hexDigits, ih]

theorem lw_hexValue {start m : Mark} {c n k v : Nat} {pre rest : Text} {Q : Nat → Mark → Text → Prop} (hk : pre.length = k)
    (hp : ∀ x ∈ pre, x < 0x80) (hQ : Q (v * 16 ^ n + c % 16 ^ n) m (pre ++ (hexDigits c n ++ rest))) :
    lw (hexValue start n k v) Q m (pre ++ (hexDigits c n ++ rest)) := by
  induction n generalizing k v pre with
  | zero =>
    unfold hexValue
    rw [lw_pure]
    simpa [Nat.mod_one] using hQ
  | succ n ih =>
    unfold hexValue
    have hd : (c >>> (4 * n)) &&& 0x0F = c / 16 ^ n % 16 := by
      rw [show (0x0F : Nat) = 2 ^ 4 - 1 from rfl, Nat.and_two_pow_sub_one_eq_mod, Nat.shiftRight_eq_div_pow, Nat.pow_mul]
    obtain ⟨f1, f2, f3⟩ := hexChar_facts ((c >>> (4 * n)) &&& 0x0F) (by rw [hd]; omega)
    simp only [hexDigits, List.cons_append] at hQ ⊢
    rw [lw_bind, lw_peekAt hk hp, f1, lw_ite, if_pos rfl, f2]
    have e : pre ++ hexChar ((c >>> (4 * n)) &&& 0x0F) :: (hexDigits c n ++ rest)
        = (pre ++ [hexChar ((c >>> (4 * n)) &&& 0x0F)]) ++ (hexDigits c n ++ rest) := by simp
    rw [e] at hQ ⊢
    refine ih (by simp [hk]) ?_ ?_
    · intro x hx
      rcases List.mem_append.mp hx with hx | hx
      · exact hp x hx
      · rw [List.mem_singleton.mp hx]; exact f3
    · have hv : (v * 16 + ((c >>> (4 * n)) &&& 0x0F)) * 16 ^ n + c % 16 ^ n = v * 16 ^ (n + 1) + c % 16 ^ (n + 1) := by
        rw [hd, Nat.mod_pow_succ, Nat.pow_succ, Nat.add_mul, Nat.mul_assoc, Nat.mul_comm 16 (16 ^ n), Nat.mul_comm (16 ^ n) (c / 16 ^ n % 16)]
        omega
      rw [hv]
      exact hQ

theorem lw_skipN {n : Nat} {t rest : Text} (ht : t.length = n) {Q : Unit → Mark → Text → Prop}
    (hQ : Q () { m with index := m.index + n, column := m.column + n } rest) : lw (skipN n) Q m (t ++ rest) := by
  induction n generalizing t m with
  | zero =>
    cases t with
    | nil => exact hQ
    | cons c t => cases ht
  | succ n ih =>
    cases t with
    | nil => cases ht
    | cons c t =>
      unfold skipN
      rw [List.cons_append, lw_bind, lw_skipC]
      refine ih (by simpa using ht) ?_
      have e1 : m.index + 1 + n = m.index + (n + 1) := by omega
      have e2 : m.column + 1 + n = m.column + (n + 1) := by omega
      simpa only [e1, e2] using hQ

/-- The text of an escape sequence: a character with a fixed meaning, or the digits. -/
theorem escapeText_cases (c : Nat) (h : UScalar c) :
    (∃ d, escapeText c = [d] ∧ d < 0x80 ∧ isBreak d = false ∧ simpleEscape d = some c) ∨
    (∃ d n, escapeText c = d :: hexDigits c n ∧ d < 0x80 ∧ isBreak d = false ∧ simpleEscape d = none ∧ codeLength d = some n ∧
      c < 16 ^ n ∧ n ≤ 8) := by
  unfold escapeText
  by_cases h1 : c = 0x00
  · subst h1; exact .inl ⟨_, rfl, by decide⟩
  by_cases h2 : c = 0x07
  · subst h2; exact .inl ⟨_, rfl, by decide⟩
  by_cases h3 : c = 0x08
  · subst h3; exact .inl ⟨_, rfl, by decide⟩
  by_cases h4 : c = 0x09
  · subst h4; exact .inl ⟨_, rfl, by decide⟩
  by_cases h5 : c = 0x0A
  · subst h5; exact .inl ⟨_, rfl, by decide⟩
  by_cases h6 : c = 0x0B
  · subst h6; exact .inl ⟨_, rfl, by decide⟩
  by_cases h7 : c = 0x0C
  · subst h7; exact .inl ⟨_, rfl, by decide⟩
  by_cases h8 : c = 0x0D
  · subst h8; exact .inl ⟨_, rfl, by decide⟩
  by_cases h9 : c = 0x1B
  · subst h9; exact .inl ⟨_, rfl, by decide⟩
  by_cases h10 : c = 0x22
  · subst h10; exact .inl ⟨_, rfl, by decide⟩
  by_cases h11 : c = 0x5C
  · subst h11; exact .inl ⟨_, rfl, by decide⟩
  by_cases h12 : c = 0x85
  · subst h12; exact .inl ⟨_, rfl, by decide⟩
  by_cases h13 : c = 0xA0
  · subst h13; exact .inl ⟨_, rfl, by decide⟩
  by_cases h14 : c = 0x2028
  · subst h14; exact .inl ⟨_, rfl, by decide⟩
  by_cases h15 : c = 0x2029
  · subst h15; exact .inl ⟨_, rfl, by decide⟩
  simp only [beq_iff_eq, h1, h2, h3, h4, h5, h6, h7, h8, h9, h10, h11, h12, h13, h14, h15, if_false]
  refine .inr ?_
  by_cases h16 : c ≤ 0xFF
  · rw [if_pos h16]; exact ⟨_, 2, rfl, by decide, by decide, by decide, by decide, by omega, by omega⟩
  by_cases h17 : c ≤ 0xFFFF
  · rw [if_neg h16, if_pos h17]; exact ⟨_, 4, rfl, by decide, by decide, by decide, by decide, by omega, by omega⟩
  · rw [if_neg h16, if_neg h17]
    exact ⟨_, 8, rfl, by decide, by decide, by decide, by decide, by have := h.1; omega, by omega⟩

/-- An escape sequence of the emitter is read as the character. -/
theorem lw_scanEscape {start : Mark} {s rest : Text} {c : Nat} (h : UScalar c) {Q : Text → Mark → Text → Prop}
    (hQ : ∀ m' : Mark, m.column ≤ m'.column → Q (s ++ [c]) m' rest) :
    lw (scanEscape start s) Q m (92 :: (escapeText c ++ rest)) := by
  unfold scanEscape
  rcases escapeText_cases c h with ⟨d, he, hd, _, hs⟩ | ⟨d, n, he, hd, _, hs, hl, hv, hn⟩
  · rw [he, List.cons_append, lw_bind, lw_peek1 (by decide), hs]
    simp only []
    rw [lw_bind, lw_skipC, lw_bind, lw_skipC, lw_pure]
    exact hQ _ (by show m.column ≤ m.column + 1 + 1; omega)
  · rw [he, List.cons_append, lw_bind, lw_peek1 (by decide), hs]
    simp only []
    rw [hl]
    simp only []
    rw [lw_bind, lw_skipC, lw_bind, lw_skipC, lw_bind, lw_cache (by omega), lw_bind]
    refine lw_hexValue (pre := []) rfl (by simp) ?_
    rw [Nat.zero_mul, Nat.zero_add, Nat.mod_eq_of_lt hv, lw_ite, if_neg (by have := h.1; have := h.2; omega), lw_bind, List.nil_append]
    refine lw_skipN (hexDigits_length _ _) ?_
    rw [lw_pure]
    exact hQ _ (by show m.column ≤ m.column + 1 + 1 + n; omega)

/-! ### Non-blank characters -/

/-- The pieces that are not blank at the beginning. -/
def solid : List Piece → List Piece
  | [] => []
  | p :: ps => if p.kind = 0 then p :: solid ps else []

/-- The other pieces. -/
def afterSolid : List Piece → List Piece
  | [] => []
  | p :: ps => if p.kind = 0 then afterSolid ps else p :: ps

/-- What may follow the closing quote: something, and not another single quote. -/
def QuoteEnd (single : Bool) (rest : Text) : Prop := single = true → rest ≠ [] ∧ rest.head? ≠ some 39

/-- The quote. -/
def quoteC (single : Bool) : Nat := if single then 39 else 34

theorem pText_blank_head {single : Bool} {lb : Break} {p : Piece} {ps : List Piece} (h : p.Ok single) (hk : p.kind ≠ 0) :
    ∃ c t, p.text lb ++ pText lb ps = c :: t ∧ isBlankz c = true ∧ (isBlank c = true ∨ isBreak c = true) ∧ (c = 0x20 ∨ p.kind = 2) := by
  cases p with
  | lit c => exact absurd rfl hk
  | esc t c => exact absurd rfl hk
  | sp => exact ⟨0x20, _, rfl, by decide, .inl (by decide), .inl rfl⟩
  | gap bs n =>
    obtain ⟨h1, h2, _⟩ := h
    cases bs with
    | nil => exact absurd rfl h1
    | cons b bs =>
      have hb := h2 b List.mem_cons_self
      simp only [Piece.text, breaksOut, brkOut]
      rcases hb with rfl | rfl | rfl
      · cases lb <;> exact ⟨_, _, rfl, by decide, .inr (by decide), .inr rfl⟩
      · exact ⟨_, _, rfl, by decide, .inr (by decide), .inr rfl⟩
      · exact ⟨_, _, rfl, by decide, .inr (by decide), .inr rfl⟩

theorem lw_flowChars {start : Mark} {single : Bool} {lb : Break} {ps : List Piece} {k n : Nat} {s rest : Text}
    (hp : Pieces single k ps) (hr : QuoteEnd single rest) (hn : (pText lb ps).length < n) {Q : Text × Bool → Mark → Text → Prop}
    (hQ : ∀ m' : Mark, m.column ≤ m'.column → Q (s ++ pValue (solid ps), false) m' (pText lb (afterSolid ps) ++ quoteC single :: rest)) :
    lw (flowChars start single n s) Q m (pText lb ps ++ quoteC single :: rest) := by
  induction ps generalizing k n s m with
  | nil =>
    cases n with
    | zero => omega
    | succ n =>
      have hq := hQ m (Nat.le_refl _)
      simp only [solid, afterSolid, pValue, List.append_nil, pText, List.nil_append] at hq ⊢
      unfold flowChars
      cases single with
      | true =>
        obtain ⟨h1, h2⟩ := hr rfl
        cases rest with
        | nil => exact absurd rfl h1
        | cons d r =>
          simp only [quoteC, if_true] at hq ⊢
          rw [lw_bind, lw_peek0, lw_ite, if_neg (by decide), lw_ite, if_pos (by decide), lw_bind, lw_peek1 (by decide),
            lw_ite, if_neg (by simpa using h2), lw_pure]
          exact hq
      | false =>
        simp only [quoteC, Bool.false_eq_true, if_false] at hq ⊢
        rw [lw_bind, lw_peek0, lw_ite, if_neg (by decide), lw_ite, if_pos (by decide), lw_pure]
        exact hq
  | cons p ps ih =>
    obtain ⟨hok, _, _, hps⟩ := hp
    cases n with
    | zero => omega
    | succ n =>
      by_cases hk : p.kind = 0
      · have hQ' : ∀ m' : Mark, m.column ≤ m'.column →
            Q (s ++ p.value ++ pValue (solid ps), false) m' (pText lb (afterSolid ps) ++ quoteC single :: rest) := by
          intro m' hm
          have := hQ m' hm
          simpa only [solid, afterSolid, hk, if_true, pValue, List.append_assoc] using this
        have hlen : (p.text lb).length + (pText lb ps).length < n + 1 := by
          simpa only [pText, List.length_append] using hn
        cases p with
        | sp => cases hk
        | gap bs j => cases hk
        | lit c =>
          obtain ⟨h1, h2⟩ := hok
          simp only [Piece.text, List.length_cons, List.length_nil] at hlen
          unfold flowChars
          simp only [pText, Piece.text, List.cons_append, List.nil_append]
          rw [lw_bind, lw_peek0, h1, lw_ite, if_neg (by simp)]
          have main : lw (do let s ← readC s; cacheC 2; flowChars start single n s) Q m (c :: (pText lb ps ++ quoteC single :: rest)) := by
            rw [lw_bind, lw_readC, lw_bind, lw_cache2]
            exact ih hps (by omega) fun m' hm => hQ' m' (by have : m.column + 1 ≤ m'.column := hm; omega)
          cases single with
          | true =>
            simp only [if_true] at h2
            rw [lw_ite, if_pos rfl, lw_ite, if_neg (by simpa using h2)]
            exact main
          | false =>
            simp only [Bool.false_eq_true, if_false] at h2 ⊢
            rw [lw_ite, if_neg (by simpa using h2.1), lw_ite, if_neg (by simpa using h2.2)]
            exact main
        | esc t c =>
          cases single with
          | true =>
            obtain ⟨rfl, rfl⟩ := hok
            simp only [Piece.text, List.length_cons, List.length_nil] at hlen
            unfold flowChars
            simp only [pText, Piece.text, List.cons_append, List.nil_append]
            rw [lw_bind, lw_peek0, lw_ite, if_neg (by decide), lw_ite, if_pos trivial, lw_ite, if_pos (by decide), lw_bind,
              lw_peek1 (by decide), lw_ite, if_pos (by decide), lw_bind, lw_skipC, lw_bind, lw_skipC, lw_bind, lw_cache2]
            exact ih hps (by omega) fun m' hm => hQ' m' (by have : m.column + 1 + 1 ≤ m'.column := hm; omega)
          | false =>
            rcases hok with ⟨rfl, rfl⟩ | ⟨rfl, hc⟩
            · simp only [Piece.text, List.length_cons, List.length_nil] at hlen
              unfold flowChars
              simp only [pText, Piece.text, List.cons_append, List.nil_append]
              rw [lw_bind, lw_peek0, lw_ite, if_neg (by decide), if_neg (by decide), lw_ite, if_neg (by decide), lw_ite, if_pos (by decide),
                lw_bind, lw_peek1 (by decide), lw_ite, if_neg (by decide), lw_bind]
              unfold scanEscape
              rw [lw_bind, lw_peek1 (by decide)]
              have hs : simpleEscape 32 = some 32 := by decide
              rw [hs]
              simp only []
              rw [lw_bind, lw_skipC, lw_bind, lw_skipC, lw_pure, lw_bind, lw_cache2]
              exact ih hps (by omega) fun m' hm => hQ' m' (by have : m.column + 1 + 1 ≤ m'.column := hm; omega)
            · simp only [Piece.text, List.length_cons] at hlen
              have hd : ∃ d t, escapeText c = d :: t ∧ isBreak d = false := by
                rcases escapeText_cases c hc with ⟨d, h1, _, h2, _⟩ | ⟨d, n, h1, _, h2, _⟩
                · exact ⟨d, _, h1, h2⟩
                · exact ⟨d, _, h1, h2⟩
              obtain ⟨d, t, he, hb⟩ := hd
              unfold flowChars
              simp only [pText, Piece.text, List.cons_append, List.append_assoc]
              rw [lw_bind, lw_peek0, lw_ite, if_neg (by decide), if_neg (by decide), lw_ite, if_neg (by decide), lw_ite, if_pos (by decide),
                lw_bind]
              have e : (92 :: (escapeText c ++ (pText lb ps ++ quoteC false :: rest))) = 92 :: d :: (t ++ (pText lb ps ++ quoteC false :: rest)) := by
                rw [he, List.cons_append]
              rw [e, lw_peek1 (by decide), hb, ← e, lw_ite, if_neg (by decide), lw_bind]
              refine lw_scanEscape hc fun m1 hm1 => ?_
              rw [lw_bind, lw_cache2]
              exact ih hps (by omega) fun m' hm => hQ' m' (by omega)
      · obtain ⟨c, t, e, hb, _⟩ := pText_blank_head (lb := lb) (ps := ps) hok hk
        have hq := hQ m (Nat.le_refl _)
        simp only [solid, afterSolid, hk, if_false, pValue, List.append_nil, pText] at hq ⊢
        rw [e] at hq ⊢
        unfold flowChars
        rw [List.cons_append, lw_bind, lw_peek0, hb, lw_ite, if_pos rfl, lw_pure]
        exact hq

theorem afterSolid_pieces {single : Bool} {k : Nat} {ps : List Piece} (h : Pieces single k ps) : Pieces single 0 (afterSolid ps) := by
  induction ps generalizing k with
  | nil => trivial
  | cons p ps ih =>
    unfold afterSolid
    split
    · exact ih h.2.2.2
    · exact h.weaken

theorem solid_value {ps : List Piece} : pValue (solid ps) ++ pValue (afterSolid ps) = pValue ps := by
  induction ps with
  | nil => rfl
  | cons p ps ih =>
    unfold solid afterSolid
    split
    · simp only [pValue, List.append_assoc, ih]
    · simp [pValue]

theorem afterSolid_text_le {lb : Break} {ps : List Piece} : (pText lb (afterSolid ps)).length ≤ (pText lb ps).length := by
  induction ps with
  | nil => exact Nat.le_refl _
  | cons p ps ih =>
    unfold afterSolid
    split
    · simp only [pText, List.length_append]; omega
    · exact Nat.le_refl _

theorem afterSolid_kind {p : Piece} {ps qs : List Piece} (h : afterSolid ps = p :: qs) : p.kind ≠ 0 := by
  induction ps with
  | nil => cases h
  | cons q ps ih =>
    unfold afterSolid at h
    split at h
    · exact ih h
    · cases h; assumption

/-! ### Blanks -/

/-- A character at which the blanks end. -/
def Stops (rest : Text) : Prop := ∃ c t, rest = c :: t ∧ isBlank c = false ∧ isBreak c = false

theorem lw_flowBlanks_stop {n : Nat} {g : Gap} {rest : Text} (h : Stops rest) (hn : 0 < n) {Q : Gap → Mark → Text → Prop} (hQ : Q g m rest) :
    lw (flowBlanks n g) Q m rest := by
  obtain ⟨c, t, rfl, h1, h2⟩ := h
  cases n with
  | zero => omega
  | succ n =>
    unfold flowBlanks
    rw [lw_bind, lw_peek0, h1, lw_ite, if_neg (by decide), h2, lw_ite, if_neg (by decide), lw_pure]
    exact hQ

theorem replicate_snocQ {α : Type} (k : Nat) (a : α) : List.replicate k a ++ [a] = a :: List.replicate k a := by
  rw [← List.replicate_succ']; rfl

/-- Spaces on the same line are kept. -/
theorem lw_flowBlanks_spaces {n k : Nat} {g : Gap} {rest : Text} (h : Stops rest) (hn : k < n) (hg : g.blanks = false)
    {Q : Gap → Mark → Text → Prop}
    (hQ : Q { g with white := g.white ++ List.replicate k 0x20 } { m with index := m.index + k, column := m.column + k } rest) :
    lw (flowBlanks n g) Q m (List.replicate k 0x20 ++ rest) := by
  induction k generalizing n g m with
  | zero => exact lw_flowBlanks_stop h hn (by simpa using hQ)
  | succ k ih =>
    cases n with
    | zero => omega
    | succ n =>
      obtain ⟨gb, gw, gl, gt⟩ := g
      dsimp only at hg
      subst hg
      unfold flowBlanks
      rw [List.replicate_succ, List.cons_append, lw_bind, lw_peek0, lw_ite, if_pos (by decide), lw_ite, if_neg (by simp), lw_bind,
        lw_readC, lw_bind, lw_cache1]
      refine ih (n := n) (g := { white := gw ++ [0x20], leading := gl, trailing := gt }) (by omega) rfl ?_
      have e1 : m.index + 1 + k = m.index + (k + 1) := by omega
      have e2 : m.column + 1 + k = m.column + (k + 1) := by omega
      simpa only [e1, e2, List.append_assoc, List.singleton_append, ← List.replicate_succ] using hQ

/-- Spaces after a line break are skipped. -/
theorem lw_flowBlanks_indent {n k : Nat} {g : Gap} {rest : Text} (h : Stops rest) (hn : k < n) (hg : g.blanks = true)
    {Q : Gap → Mark → Text → Prop} (hQ : Q g { m with index := m.index + k, column := m.column + k } rest) :
    lw (flowBlanks n g) Q m (List.replicate k 0x20 ++ rest) := by
  induction k generalizing n m with
  | zero => exact lw_flowBlanks_stop h hn (by simpa using hQ)
  | succ k ih =>
    cases n with
    | zero => omega
    | succ n =>
      unfold flowBlanks
      rw [List.replicate_succ, List.cons_append, lw_bind, lw_peek0, lw_ite, if_pos (by decide), hg, lw_ite, if_pos rfl, lw_bind,
        lw_skipC, lw_bind, lw_cache1]
      refine ih (n := n) (by omega) ?_
      have e1 : m.index + 1 + k = m.index + (k + 1) := by omega
      have e2 : m.column + 1 + k = m.column + (k + 1) := by omega
      simpa only [e1, e2] using hQ

theorem brkOut_head {lb : Break} {b : Nat} (hb : keptBreak b) (r : Text) : ∃ c t, brkOut lb b ++ r = c :: t ∧ isBlank c = false ∧ isBreak c = true := by
  unfold brkOut
  rcases hb with rfl | rfl | rfl
  · cases lb <;> exact ⟨_, _, rfl, by decide, by decide⟩
  · exact ⟨_, _, rfl, by decide, by decide⟩
  · exact ⟨_, _, rfl, by decide, by decide⟩

theorem brkOut_length {lb : Break} {b : Nat} : 1 ≤ (brkOut lb b).length := by
  unfold brkOut
  split
  · cases lb <;> simp [brkText]
  · simp

/-- The text after a line break does not begin with a LF where that would matter. -/
def AfterBreak (lb : Break) (r : Text) : Prop := r ≠ [] ∧ (lb = .cr → r.head? ≠ some 0xA)

theorem lw_readLine' {s : Text} {lb : Break} {b : Nat} {r : Text} (hb : keptBreak b) (hr : AfterBreak lb r)
    {Q : Text → Mark → Text → Prop} (hQ : ∀ k, Q (s ++ [b]) { index := k, line := m.line + 1, column := 0 } r) :
    lw (readLine s) Q m (brkOut lb b ++ r) := by
  by_cases h : lb = .cr
  · exact lw_readLine hb hr.1 (hr.2 h) hQ
  · unfold readLine brkOut
    obtain ⟨hne, _⟩ := hr
    cases r with
    | nil => exact absurd rfl hne
    | cons d r =>
      rcases hb with rfl | rfl | rfl
      · rw [if_pos rfl]
        cases lb with
        | cr => exact absurd rfl h
        | ln =>
          simp only [brkText, List.cons_append, List.nil_append]
          rw [lw_bind, lw_peek0, lw_ite, if_neg (by decide), lw_ite, if_pos (by decide), lw_bind, lw_passBreak1, lw_pure]
          exact hQ _
        | crln =>
          simp only [brkText, List.cons_append, List.nil_append]
          rw [lw_bind, lw_peek0, lw_ite, if_pos (by decide), lw_bind, lw_peek1 (by omega), lw_bind]
          rw [if_pos (by decide), lw_passBreak2, lw_pure]
          exact hQ _
      · rw [if_neg (by decide)]
        simp only [List.cons_append, List.nil_append]
        rw [lw_bind, lw_peek0, lw_ite, if_neg (by decide), lw_ite, if_neg (by decide), lw_ite, if_pos (by decide), lw_bind,
          lw_passBreak1, lw_pure]
        exact hQ _
      · rw [if_neg (by decide)]
        simp only [List.cons_append, List.nil_append]
        rw [lw_bind, lw_peek0, lw_ite, if_neg (by decide), lw_ite, if_neg (by decide), lw_ite, if_pos (by decide), lw_bind,
          lw_passBreak1, lw_pure]
        exact hQ _

theorem afterBreak_breaks {lb : Break} {bs r : Text} (h : ∀ b ∈ bs, keptBreak b) (hr : AfterBreak lb r) : AfterBreak lb (breaksOut lb bs ++ r) := by
  cases bs with
  | nil => exact hr
  | cons b bs =>
    have hb := h b List.mem_cons_self
    unfold breaksOut brkOut
    rcases hb with rfl | rfl | rfl
    · cases lb <;> exact ⟨by simp [brkText], by simp [brkText]⟩
    · exact ⟨by simp, by simp⟩
    · exact ⟨by simp, by simp⟩

theorem afterBreak_spaces {lb : Break} {n : Nat} {r : Text} (h : 1 ≤ n) : AfterBreak lb (List.replicate n 0x20 ++ r) := by
  cases n with
  | zero => omega
  | succ n => exact ⟨by simp [List.replicate_succ], by simp [List.replicate_succ]⟩

/-- Further line breaks and the indentation. -/
theorem lw_flowBlanks_trailing {n k : Nat} {lb : Break} {bs : Text} {g : Gap} {rest : Text} (h : Stops rest) (hb : ∀ b ∈ bs, keptBreak b)
    (hk : 1 ≤ k) (hn : (breaksOut lb bs).length + k < n) (hg : g.blanks = true) {Q : Gap → Mark → Text → Prop}
    (hQ : ∀ m' : Mark, m'.column = (if bs = [] then m.column + k else k) → Q { g with trailing := g.trailing ++ bs } m' rest) :
    lw (flowBlanks n g) Q m (breaksOut lb bs ++ (List.replicate k 0x20 ++ rest)) := by
  induction bs generalizing n g m with
  | nil =>
    refine lw_flowBlanks_indent h (by simpa [breaksOut] using hn) hg ?_
    simpa using hQ { m with index := m.index + k, column := m.column + k } rfl
  | cons b bs ih =>
    have hb1 := hb b List.mem_cons_self
    have hb2 : ∀ b ∈ bs, keptBreak b := fun x hx => hb x (List.mem_cons_of_mem _ hx)
    simp only [breaksOut, List.length_append] at hn
    have := brkOut_length (lb := lb) (b := b)
    cases n with
    | zero => omega
    | succ n =>
      obtain ⟨gb, gw, gl, gt⟩ := g
      dsimp only at hg
      subst hg
      unfold flowBlanks
      simp only [breaksOut, List.append_assoc]
      obtain ⟨c, t, e, hc1, hc2⟩ := brkOut_head (lb := lb) hb1 (breaksOut lb bs ++ (List.replicate k 0x20 ++ rest))
      rw [e, lw_bind, lw_peek0, hc1, lw_ite, if_neg (by decide), hc2, lw_ite, if_pos rfl, lw_bind, lw_cache2, lw_ite, if_pos trivial, lw_bind, ← e]
      refine lw_readLine' hb1 (afterBreak_breaks hb2 (afterBreak_spaces hk)) fun j => ?_
      rw [lw_bind, lw_cache1]
      refine ih (n := n) (g := { blanks := true, white := gw, leading := gl, trailing := gt ++ [b] }) hb2 (by omega) rfl fun m' hm => ?_
      have := hQ m' (by
        rw [hm]
        simp)
      simpa only [List.append_assoc, List.singleton_append] using this

/-- Line breaks and indentation. -/
theorem lw_flowBlanks_gap {n k : Nat} {lb : Break} {bs : Text} {rest : Text} (h : Stops rest) (hne : bs ≠ []) (hb : ∀ b ∈ bs, keptBreak b)
    (hk : 1 ≤ k) (hn : (breaksOut lb bs).length + k < n) {Q : Gap → Mark → Text → Prop}
    (hQ : ∀ (m' : Mark) (g : Gap), m'.column = k → (∀ s, joinGap s g = s ++ foldBreaks bs) → Q g m' rest) :
    lw (flowBlanks n {}) Q m (breaksOut lb bs ++ (List.replicate k 0x20 ++ rest)) := by
  cases bs with
  | nil => exact absurd rfl hne
  | cons b bs =>
    have hb1 := hb b List.mem_cons_self
    have hb2 : ∀ b ∈ bs, keptBreak b := fun x hx => hb x (List.mem_cons_of_mem _ hx)
    simp only [breaksOut, List.length_append] at hn
    have := brkOut_length (lb := lb) (b := b)
    cases n with
    | zero => omega
    | succ n =>
      unfold flowBlanks
      simp only [breaksOut, List.append_assoc]
      obtain ⟨c, t, e, hc1, hc2⟩ := brkOut_head (lb := lb) hb1 (breaksOut lb bs ++ (List.replicate k 0x20 ++ rest))
      rw [e, lw_bind, lw_peek0, hc1, lw_ite, if_neg (by decide), hc2, lw_ite, if_pos rfl, lw_bind, lw_cache2, lw_ite, if_neg (by decide), lw_bind, ← e]
      refine lw_readLine' hb1 (afterBreak_breaks hb2 (afterBreak_spaces hk)) fun j => ?_
      rw [lw_bind, lw_cache1]
      refine lw_flowBlanks_trailing (n := n) h hb2 hk (by omega) rfl fun m' hm => hQ m' _ (by rw [hm]; simp) fun s => ?_
      unfold joinGap foldBreaks
      simp only [if_true, List.nil_append, List.head?_cons]
      by_cases hl : b = 0xA
      · subst hl
        simp only [beq_self_eq_true, if_true]
        cases bs <;> simp
      · simp [hl]

/-! ### The body -/

theorem pText_stops {single : Bool} {lb : Break} {ps : List Piece} {rest : Text} (h : Pieces single 2 ps) (hq : ∃ c t, rest = c :: t ∧ c = quoteC single) :
    Stops (pText lb ps ++ rest) := by
  cases ps with
  | nil =>
    obtain ⟨c, t, rfl, rfl⟩ := hq
    exact ⟨_, t, rfl, by cases single <;> decide, by cases single <;> decide⟩
  | cons p ps =>
    obtain ⟨hok, h2, h1, _⟩ := h
    cases p with
    | sp => exact absurd rfl (h1 rfl)
    | gap bs n => exact absurd (h2 rfl) (by decide)
    | lit c =>
      have hb := hok.1
      have hb' : isBlank c = false ∧ isBreak c = false := by
        unfold isBlankz isBreakz at hb
        simp only [Bool.or_eq_false_iff] at hb
        exact ⟨hb.1, hb.2.1⟩
      exact ⟨c, _, rfl, hb'⟩
    | esc t c =>
      cases single with
      | true => obtain ⟨rfl, _⟩ := hok; exact ⟨39, _, rfl, by decide, by decide⟩
      | false =>
        rcases hok with ⟨rfl, _⟩ | ⟨rfl, _⟩
        · exact ⟨92, _, rfl, by decide, by decide⟩
        · exact ⟨92, _, rfl, by decide, by decide⟩

/-- Spaces at the beginning. -/
def spaceRun : List Piece → Nat
  | .sp :: ps => spaceRun ps + 1
  | _ => 0

/-- What is behind the spaces. -/
def afterSpaces : List Piece → List Piece
  | .sp :: ps => afterSpaces ps
  | ps => ps

theorem spaceRun_facts {single : Bool} {lb : Break} {ps : List Piece} {k : Nat} (h : Pieces single k ps) :
    pText lb ps = List.replicate (spaceRun ps) 0x20 ++ pText lb (afterSpaces ps) ∧
    pValue ps = List.replicate (spaceRun ps) 0x20 ++ pValue (afterSpaces ps) ∧
    (0 < spaceRun ps ∨ k = 1 → Pieces single 2 (afterSpaces ps)) := by
  induction ps generalizing k with
  | nil => exact ⟨rfl, rfl, fun _ => trivial⟩
  | cons p ps ih =>
    cases p with
    | sp =>
      obtain ⟨h1, h2, h3⟩ := ih h.2.2.2
      refine ⟨?_, ?_, fun _ => h3 (.inr rfl)⟩
      · simp only [pText, Piece.text, spaceRun, afterSpaces, List.replicate_succ, List.cons_append, List.nil_append]; rw [h1]
      · simp only [pValue, Piece.value, spaceRun, afterSpaces, List.replicate_succ, List.cons_append, List.nil_append]; rw [h2]
    | lit c =>
      refine ⟨rfl, rfl, fun hk => ?_⟩
      exact ⟨h.1, (fun hx => by cases hx), (fun hx => by cases hx), h.2.2.2⟩
    | esc t c =>
      refine ⟨rfl, rfl, fun hk => ?_⟩
      exact ⟨h.1, (fun hx => by cases hx), (fun hx => by cases hx), h.2.2.2⟩
    | gap bs n =>
      refine ⟨rfl, rfl, fun hk => ?_⟩
      rcases hk with hk | rfl
      · exact absurd hk (by simp [spaceRun])
      · exact absurd (h.2.1 rfl) (by decide)

theorem lw_flowBody {start : Mark} {single : Bool} {lb : Break} {ps : List Piece} {f n : Nat} {s rest : Text}
    (hp : Pieces single 0 ps) (hr : QuoteEnd single rest) (hf : (pText lb ps).length < f) (hn : (pText lb ps).length < n) (hc : 1 ≤ m.column)
    {Q : Text → Mark → Text → Prop} (hQ : ∀ m', Q (s ++ pValue ps) m' (quoteC single :: rest)) :
    lw (flowBody f start single n s) Q m (pText lb ps ++ quoteC single :: rest) := by
  induction n generalizing ps s m with
  | zero => omega
  | succ n ih =>
    unfold flowBody
    rw [lw_bind, lw_cache4, lw_bind, lw_docIndicator (by omega), lw_ite, if_neg (by decide), lw_bind]
    have hz : ∃ c t, pText lb ps ++ quoteC single :: rest = c :: t ∧ isZ c = false := by
      cases ps with
      | nil => exact ⟨_, _, rfl, by cases single <;> decide⟩
      | cons p ps =>
        by_cases hk : p.kind = 0
        · have hok := hp.1
          cases p with
          | sp => cases hk
          | gap bs j => cases hk
          | lit c =>
            refine ⟨c, _, rfl, ?_⟩
            have hb := hok.1
            unfold isBlankz isBreakz at hb
            simp only [Bool.or_eq_false_iff] at hb
            exact hb.2.2
          | esc t c =>
            cases single with
            | true => obtain ⟨rfl, _⟩ := hok; exact ⟨39, _, rfl, by decide⟩
            | false =>
              rcases hok with ⟨rfl, _⟩ | ⟨rfl, _⟩
              · exact ⟨92, _, rfl, by decide⟩
              · exact ⟨92, _, rfl, by decide⟩
        · obtain ⟨c, t, e, _, hb, _⟩ := pText_blank_head (lb := lb) (ps := ps) hp.1 hk
          simp only [pText]
          rw [e]
          refine ⟨c, _, rfl, ?_⟩
          cases hc0 : isZ c with
          | false => rfl
          | true =>
            have : c = 0 := by simpa [isZ] using hc0
            subst this
            rcases hb with hb | hb <;> exact absurd hb (by decide)
    obtain ⟨c0, t0, e0, hz⟩ := hz
    rw [e0, lw_peek0, hz, ← e0, lw_ite, if_neg (by decide), lw_bind, lw_cache2, lw_bind]
    refine lw_flowChars hp hr hf fun m1 hm1 => ?_
    simp only []
    rw [lw_bind, lw_cache1, lw_bind]
    have hvs := solid_value (ps := ps)
    have hp1 := afterSolid_pieces hp
    have hl1 := afterSolid_text_le (lb := lb) (ps := ps)
    cases hps : afterSolid ps with
    | nil =>
      rw [hps] at hvs
      simp only [pValue, List.append_nil] at hvs
      simp only [pText, List.nil_append]
      rw [lw_peek0, lw_ite, if_pos (by cases single <;> rfl), lw_pure, hvs]
      exact hQ _
    | cons p qs =>
      rw [hps] at hp1 hl1 hvs
      have hk := afterSolid_kind hps
      obtain ⟨c, t, e, hb, hb2, _⟩ := pText_blank_head (lb := lb) (ps := qs) hp1.1 hk
      have hcq : (c == (if single = true then 39 else 34)) = false := by
        cases hx : (c == (if single = true then 39 else 34)) with
        | false => rfl
        | true =>
          have : c = (if single = true then 39 else 34) := by simpa using hx
          subst this
          cases single <;> exact absurd hb (by decide)
      simp only [pText] at hl1 ⊢
      rw [e, List.cons_append, lw_peek0, hcq, lw_ite, if_neg (by decide), lw_bind, ← List.cons_append, ← e, List.append_assoc]
      cases p with
      | lit c => exact absurd rfl hk
      | esc t c => exact absurd rfl hk
      | sp =>
        obtain ⟨h1, h2, h3⟩ := spaceRun_facts (lb := lb) hp1
        have hsr : 0 < spaceRun (Piece.sp :: qs) := by simp [spaceRun]
        have h3 := h3 (.inl hsr)
        have hlen : (pText lb (Piece.sp :: qs)).length = spaceRun (Piece.sp :: qs) + (pText lb (afterSpaces (Piece.sp :: qs))).length := by
          rw [h1]; simp
        have e2 : Piece.text lb .sp ++ (pText lb qs ++ quoteC single :: rest) =
            List.replicate (spaceRun (Piece.sp :: qs)) 0x20 ++ (pText lb (afterSpaces (Piece.sp :: qs)) ++ quoteC single :: rest) := by
          rw [← List.append_assoc, ← List.append_assoc, ← h1]; rfl
        simp only [pText, List.length_append] at hlen
        simp only [List.length_append] at hl1
        rw [e2]
        refine lw_flowBlanks_spaces (pText_stops h3 ⟨_, _, rfl, rfl⟩) (by omega) rfl ?_
        refine ih h3.weaken (by omega) (by omega) (by show 1 ≤ m1.column + _; omega) fun m' => ?_
        have := hQ m'
        rw [← hvs, h2] at this
        simpa [joinGap] using this
      | gap bs j =>
        obtain ⟨hne, hbs, hj⟩ := hp1.1
        have h3 : Pieces single 2 qs := hp1.2.2.2
        simp only [Piece.text, List.length_append, List.length_replicate] at hl1
        simp only [Piece.text, List.append_assoc]
        refine lw_flowBlanks_gap (pText_stops h3 ⟨_, _, rfl, rfl⟩) hne hbs hj (by omega) fun m2 g hm2 hg => ?_
        rw [hg]
        refine ih h3.weaken (by omega) (by omega) (by omega) fun m' => ?_
        have := hQ m'
        rw [← hvs] at this
        simpa [pValue, Piece.value] using this

/-- A quoted scalar is read as the values of its pieces. -/
theorem lw_scanFlowScalar {single : Bool} {lb : Break} {ps : List Piece} {f : Nat} {rest : Text}
    (hp : Pieces single 0 ps) (hr : QuoteEnd single rest) (hf : (pText lb ps).length < f) :
    lw (scanFlowScalar f single) (fun t _ cs => t.data = .scalar (pValue ps) (if single then .single else .double) ∧ cs = rest)
      m (quoteC single :: (pText lb ps ++ quoteC single :: rest)) := by
  unfold scanFlowScalar
  rw [lw_bind, lw_get, lw_bind, lw_skipC, lw_bind]
  refine lw_flowBody hp hr hf hf (by show 1 ≤ m.column + 1; omega) fun m' => ?_
  rw [lw_bind, lw_skipC, lw_bind, lw_get, lw_pure]
  exact ⟨rfl, rfl⟩

end LibYaml
