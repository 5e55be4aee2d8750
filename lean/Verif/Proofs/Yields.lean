import Verif.Proofs.Go
import Verif.Spec.Lexemes

/-!
# Successful runs over a buffered text

`Yields p s cs a s' cs'`: the program `p` succeeds in the state `s` on the text `cs` with the result `a`, the state `s'` and the text `cs'`
left. For every operation there is a rule that says exactly when it does.
-/

namespace LibYaml

open Spec

/-- `p` succeeds with this result. -/
def Yields {σ α : Type} (p : StateT σ Prog α) (s : σ) (cs : Text) (a : α) (s' : σ) (cs' : Text) : Prop :=
  (p s).go cs = .ok ((a, s'), cs')

section rules
variable {σ α β : Type} {s s' : σ} {cs cs' : Text} {a b : α}

theorem yields_lw {p : StateT σ Prog α} {Q : α → σ → Text → Prop} :
    lw p Q s cs ↔ ∃ a s' cs', Yields p s cs a s' cs' ∧ Q a s' cs' := lw_iff

theorem lw_yields {p : StateT σ Prog α} : Yields p s cs a s' cs' ↔ lw p (fun x y z => x = a ∧ y = s' ∧ z = cs') s cs := by
  rw [yields_lw]
  constructor
  · intro h; exact ⟨_, _, _, h, rfl, rfl, rfl⟩
  · rintro ⟨_, _, _, h, rfl, rfl, rfl⟩; exact h

theorem y_bind {p : StateT σ Prog α} {f : α → StateT σ Prog β} {b : β} :
    Yields (p >>= f) s cs b s' cs' ↔ ∃ a s1 cs1, Yields p s cs a s1 cs1 ∧ Yields (f a) s1 cs1 b s' cs' := by
  rw [lw_yields, lw_bind, yields_lw]
  constructor
  · rintro ⟨a, s1, cs1, h1, h2⟩; exact ⟨a, s1, cs1, h1, lw_yields.mpr h2⟩
  · rintro ⟨a, s1, cs1, h1, h2⟩; exact ⟨a, s1, cs1, h1, lw_yields.mp h2⟩

theorem y_pure : Yields (pure a) s cs b s' cs' ↔ b = a ∧ s' = s ∧ cs' = cs := by
  rw [lw_yields, lw_pure]
  exact ⟨fun ⟨a, b, c⟩ => ⟨a.symm, b.symm, c.symm⟩, fun ⟨a, b, c⟩ => ⟨a.symm, b.symm, c.symm⟩⟩

theorem y_get {x : σ} : Yields (get : StateT σ Prog σ) s cs x s' cs' ↔ x = s ∧ s' = s ∧ cs' = cs := by
  rw [lw_yields, lw_get]
  exact ⟨fun ⟨a, b, c⟩ => ⟨a.symm, b.symm, c.symm⟩, fun ⟨a, b, c⟩ => ⟨a.symm, b.symm, c.symm⟩⟩

theorem y_ite {c : Prop} [Decidable c] {p q : StateT σ Prog α} :
    Yields (if c then p else q) s cs a s' cs' ↔ (c ∧ Yields p s cs a s' cs') ∨ (¬ c ∧ Yields q s cs a s' cs') := by
  by_cases h : c
  · rw [if_pos h]; simp [h]
  · rw [if_neg h]; simp [h]

theorem y_det {p : StateT σ Prog α} {s1 : σ} {cs1 : Text} (h : Yields p s cs a s' cs') (h' : Yields p s cs b s1 cs1) : a = b ∧ s' = s1 ∧ cs' = cs1 := by
  unfold Yields at h h'
  rw [h] at h'
  cases h'
  exact ⟨rfl, rfl, rfl⟩

end rules

variable {m m' : Mark} {cs cs' : Text} {u : Unit}

theorem y_cache {n : Nat} (hn : n ≤ 6144) : Yields (cacheC n) m cs u m' cs' ↔ m' = m ∧ cs' = cs := by
  rw [lw_yields, lw_cache hn]
  exact ⟨fun ⟨_, b, c⟩ => ⟨b.symm, c.symm⟩, fun ⟨b, c⟩ => ⟨rfl, b.symm, c.symm⟩⟩

theorem y_cache1 : Yields (cacheC 1) m cs u m' cs' ↔ m' = m ∧ cs' = cs := y_cache (by omega)
theorem y_cache2 : Yields (cacheC 2) m cs u m' cs' ↔ m' = m ∧ cs' = cs := y_cache (by omega)
theorem y_cache3 : Yields (cacheC 3) m cs u m' cs' ↔ m' = m ∧ cs' = cs := y_cache (by omega)
theorem y_cache4 : Yields (cacheC 4) m cs u m' cs' ↔ m' = m ∧ cs' = cs := y_cache (by omega)

theorem y_peek {j c : Nat} : Yields (peekC j) m cs c m' cs' ↔ (∀ x ∈ cs.take j, x < 0x80) ∧ cs[j]? = some c ∧ m' = m ∧ cs' = cs := by
  unfold Yields peekC
  simp only [Prog.go]
  by_cases h : (cs.take j).all (· < 0x80) = true
  · rw [if_pos h]
    have h' : ∀ x ∈ cs.take j, x < 0x80 := by simpa using h
    cases hj : cs[j]? with
    | none => simp
    | some d =>
      constructor
      · intro e; cases e; exact ⟨h', rfl, rfl, rfl⟩
      · rintro ⟨_, e, rfl, rfl⟩; cases e; rfl
  · rw [if_neg h]
    constructor
    · intro e; cases e
    · rintro ⟨e, _⟩; exact absurd (by simpa using e) h

theorem y_peek0 {c : Nat} : Yields (peekC 0) m cs c m' cs' ↔ ∃ r, cs = c :: r ∧ m' = m ∧ cs' = cs := by
  rw [y_peek]
  cases cs with
  | nil => simp
  | cons d r => simp

theorem y_peek1 {c : Nat} : Yields (peekC 1) m cs c m' cs' ↔ ∃ a r, cs = a :: c :: r ∧ a < 0x80 ∧ m' = m ∧ cs' = cs := by
  rw [y_peek]
  match cs with
  | [] => simp
  | [a] => simp
  | a :: d :: r =>
    constructor
    · rintro ⟨h, e, h'⟩
      simp at h e
      subst e
      exact ⟨a, r, rfl, h, h'⟩
    · rintro ⟨_, _, e, h, h'⟩
      cases e
      exact ⟨by simpa using h, rfl, h'⟩

/-- The mark after a character that is no line break. -/
abbrev Mark.step (m : Mark) : Mark := { m with index := m.index + 1, column := m.column + 1 }

theorem y_skipC : Yields skipC m cs u m' cs' ↔ ∃ c, cs = c :: cs' ∧ m' = m.step := by
  cases cs with
  | nil =>
    constructor
    · intro h; cases h
    · rintro ⟨_, h, _⟩; cases h
  | cons c r =>
    rw [lw_yields, lw_skipC]
    constructor
    · rintro ⟨_, rfl, rfl⟩; exact ⟨c, rfl, rfl⟩
    · rintro ⟨_, h, rfl⟩; cases h; exact ⟨rfl, rfl, rfl⟩

theorem y_readC {s t : Text} : Yields (readC s) m cs t m' cs' ↔ ∃ c, cs = c :: cs' ∧ t = s ++ [c] ∧ m' = m.step := by
  unfold readC
  simp only [y_bind, y_peek0, y_skipC, y_pure]
  constructor
  · rintro ⟨c, _, _, ⟨r, rfl, rfl, rfl⟩, _, _, _, ⟨d, h, rfl⟩, rfl, rfl, rfl⟩
    cases h
    exact ⟨c, rfl, rfl, rfl⟩
  · rintro ⟨c, rfl, rfl, rfl⟩
    exact ⟨c, _, _, ⟨_, rfl, rfl, rfl⟩, (), _, _, ⟨c, rfl, rfl⟩, rfl, rfl, rfl⟩

theorem y_err {α : Type} {ctx : Option String} {cm : Mark} {pb : String} {a : α} : ¬ Yields (lexErr ctx cm pb) m cs a m' cs' := by
  intro h; cases h

theorem y_fuel {α : Type} {a : α} : ¬ Yields (fun _ => .fail .fuel : Lex α) m cs a m' cs' := by
  intro h; cases h

/-! ### Characters -/

theorem blank_iff {c : Nat} : isBlank c = true ↔ Blank c := by
  simp [isBlank, isSpace, isTab, Blank]

theorem brk_iff {c : Nat} : isBreak c = true ↔ Brk c := by
  simp [isBreak, Brk]; omega

theorem white_iff {c : Nat} : isBlankz c = true ↔ White c := by
  simp [isBlankz, isBreakz, isZ, blank_iff, brk_iff, White]

theorem breakz_iff {c : Nat} : isBreakz c = true ↔ Brk c ∨ c = 0 := by
  simp [isBreakz, isZ, brk_iff]

theorem word_iff {c : Nat} : isAlpha c = true ↔ Word c := by
  simp [isAlpha, Word]; omega

theorem flowMark_iff {c : Nat} : isFlowIndicator c = true ↔ FlowMark c := by
  simp [isFlowIndicator, FlowMark]; omega

theorem hex_iff {c : Nat} : isHex c = true ↔ ∃ d, Hex c d := by
  constructor
  · intro h
    simp [isHex] at h
    rcases h with (h | h) | h
    · exact ⟨c - 0x30, by have := Hex.digit (c - 0x30) (by omega); rwa [show 0x30 + (c - 0x30) = c by omega] at this⟩
    · exact ⟨_, by have := Hex.upper (c - 0x41) (by omega); rwa [show 0x41 + (c - 0x41) = c by omega] at this⟩
    · exact ⟨_, by have := Hex.lower (c - 0x61) (by omega); rwa [show 0x61 + (c - 0x61) = c by omega] at this⟩
  · rintro ⟨d, h⟩
    cases h <;> simp [isHex] <;> omega

theorem Spec.Hex.value {c d : Nat} (h : Hex c d) : isHex c = true ∧ asHex c = d ∧ c < 0x80 ∧ d < 16 := by
  refine ⟨hex_iff.mpr ⟨d, h⟩, ?_⟩
  cases h with
  | digit e h => refine ⟨?_, by omega, by omega⟩; simp only [asHex]; rw [if_neg (by simp; omega), if_neg (by simp; omega)]; omega
  | upper e h => refine ⟨?_, by omega, by omega⟩; simp only [asHex]; rw [if_pos (by simp; omega)]; omega
  | lower e h => refine ⟨?_, by omega, by omega⟩; simp only [asHex]; rw [if_neg (by simp; omega), if_pos (by simp; omega)]; omega

theorem Spec.Hex.of {c : Nat} (h : isHex c = true) : Hex c (asHex c) := by
  obtain ⟨d, h⟩ := hex_iff.mp h
  rw [h.value.2.1]
  exact h

/-! ### Line breaks -/

/-- The mark after a line break of `n` characters. -/
abbrev Mark.newline (m : Mark) (n : Nat) : Mark := { index := m.index + n, line := m.line + 1, column := 0 }

theorem y_passBreak1 : Yields (passBreak 1) m cs u m' cs' ↔ ∃ c, cs = c :: cs' ∧ m' = m.newline 1 := by
  cases cs with
  | nil => exact ⟨(fun h => by cases h), (fun ⟨_, h, _⟩ => by cases h)⟩
  | cons c r =>
    rw [lw_yields, lw_passBreak1]
    constructor
    · rintro ⟨_, rfl, rfl⟩; exact ⟨c, rfl, rfl⟩
    · rintro ⟨_, h, rfl⟩; cases h; exact ⟨rfl, rfl, rfl⟩

theorem y_passBreak2 : Yields (passBreak 2) m cs u m' cs' ↔ ∃ c d, cs = c :: d :: cs' ∧ m' = m.newline 2 := by
  match cs with
  | [] => exact ⟨(fun h => by cases h), (fun ⟨_, _, h, _⟩ => by cases h)⟩
  | [c] => exact ⟨(fun h => by cases h), (fun ⟨_, _, h, _⟩ => by cases h)⟩
  | c :: d :: r =>
    rw [lw_yields, lw_passBreak2]
    constructor
    · rintro ⟨_, rfl, rfl⟩; exact ⟨c, d, rfl, rfl⟩
    · rintro ⟨_, _, h, rfl⟩; cases h; exact ⟨rfl, rfl, rfl⟩

theorem Spec.BreakAt.head {b : Nat} (h : BreakAt cs b cs') : ∃ c r, cs = c :: r ∧ Brk c := by
  cases h <;> exact ⟨_, _, rfl, by simp [Brk]⟩

theorem Spec.BreakAt.length {b : Nat} (h : BreakAt cs b cs') : cs'.length < cs.length := by
  cases h <;> simp <;> omega

/-- The line break at the beginning of a text is determined. -/
theorem Spec.BreakAt.det {b b' : Nat} {r r' : List Nat} (h : BreakAt cs b r) (h' : BreakAt cs b' r') : b = b' ∧ r = r' := by
  cases h <;> cases h' <;> first | exact ⟨rfl, rfl⟩ | exact absurd rfl ‹_›

/-- Number of characters of the break. -/
theorem y_readLine {s t : Text} : Yields (readLine s) m cs t m' cs' ↔
    (∃ b, BreakAt cs b cs' ∧ t = s ++ [b] ∧ m' = m.newline (cs.length - cs'.length)) ∨
    (Heads (fun c => ¬ Brk c) cs ∧ t = s ∧ m' = m ∧ cs' = cs) := by
  unfold readLine
  simp only [y_bind, y_peek0, y_ite, y_pure, y_peek1]
  constructor
  · rintro ⟨c, _, _, ⟨r, rfl, rfl, rfl⟩, h⟩
    rcases h with ⟨hc, d, _, _, ⟨_, r', h, _, rfl, rfl⟩, _, _, _, hp, rfl, rfl, rfl⟩ | ⟨hc, h⟩
    · cases h
      have hc : c = 0xD := by simpa using hc
      subst hc
      left
      by_cases hd : (d == 0xA) = true
      · rw [if_pos hd, y_passBreak2] at hp
        have hd : d = 0xA := by simpa using hd
        subst hd
        obtain ⟨_, _, h, rfl⟩ := hp
        cases h
        exact ⟨0xA, .crlf _, rfl, by simp; omega⟩
      · rw [if_neg hd, y_passBreak1] at hp
        obtain ⟨_, h, rfl⟩ := hp
        cases h
        exact ⟨0xA, .cr _ _ (by simpa using hd), rfl, by simp⟩
    · rcases h with ⟨hc', _, _, _, hp, rfl, rfl, rfl⟩ | ⟨hc', h⟩
      · rw [y_passBreak1] at hp
        obtain ⟨_, h, rfl⟩ := hp
        cases h
        left
        have hc' : c = 0xA ∨ c = 0x85 := by simpa using hc'
        rcases hc' with rfl | rfl
        · exact ⟨0xA, .lf _, rfl, by simp⟩
        · exact ⟨0xA, .nel _, rfl, by simp⟩
      · rcases h with ⟨hc2, _, _, _, hp, rfl, rfl, rfl⟩ | ⟨hc2, rfl, rfl, rfl⟩
        · rw [y_passBreak1] at hp
          obtain ⟨_, h, rfl⟩ := hp
          cases h
          left
          have hc2 : c = 0x2028 ∨ c = 0x2029 := by simpa using hc2
          rcases hc2 with rfl | rfl
          · exact ⟨0x2028, .ls _, rfl, by simp⟩
          · exact ⟨0x2029, .ps _, rfl, by simp⟩
        · right
          refine ⟨⟨c, r, rfl, ?_⟩, rfl, rfl, rfl⟩
          simp at hc hc' hc2
          simp [Brk]; omega
  · rintro (⟨b, h, rfl, rfl⟩ | ⟨⟨c, r, rfl, hc⟩, rfl, rfl, rfl⟩)
    · cases h with
      | crlf r =>
        refine ⟨_, _, _, ⟨_, rfl, rfl, rfl⟩, .inl ⟨by decide, _, _, _, ⟨_, _, rfl, by decide, rfl, rfl⟩, (), _, _, ?_, rfl, rfl, rfl⟩⟩
        rw [if_pos (by decide), y_passBreak2]
        exact ⟨_, _, rfl, by simp; omega⟩
      | cr d r hd =>
        refine ⟨_, _, _, ⟨_, rfl, rfl, rfl⟩, .inl ⟨by decide, _, _, _, ⟨_, _, rfl, by decide, rfl, rfl⟩, (), _, _, ?_, rfl, rfl, rfl⟩⟩
        rw [if_neg (by simpa using hd), y_passBreak1]
        exact ⟨_, rfl, by simp⟩
      | lf r =>
        refine ⟨_, _, _, ⟨_, rfl, rfl, rfl⟩, .inr ⟨by decide, .inl ⟨by decide, (), _, _, ?_, rfl, rfl, rfl⟩⟩⟩
        rw [y_passBreak1]
        exact ⟨_, rfl, by simp⟩
      | nel r =>
        refine ⟨_, _, _, ⟨_, rfl, rfl, rfl⟩, .inr ⟨by decide, .inl ⟨by decide, (), _, _, ?_, rfl, rfl, rfl⟩⟩⟩
        rw [y_passBreak1]
        exact ⟨_, rfl, by simp⟩
      | ls r =>
        refine ⟨_, _, _, ⟨_, rfl, rfl, rfl⟩, .inr ⟨by decide, .inr ⟨by decide, .inl ⟨by decide, (), _, _, ?_, rfl, rfl, rfl⟩⟩⟩⟩
        rw [y_passBreak1]
        exact ⟨_, rfl, by simp⟩
      | ps r =>
        refine ⟨_, _, _, ⟨_, rfl, rfl, rfl⟩, .inr ⟨by decide, .inr ⟨by decide, .inl ⟨by decide, (), _, _, ?_, rfl, rfl, rfl⟩⟩⟩⟩
        rw [y_passBreak1]
        exact ⟨_, rfl, by simp⟩
    · simp [Brk] at hc
      refine ⟨_, _, _, ⟨_, rfl, rfl, rfl⟩, .inr ⟨by simp; omega, .inr ⟨by simp; omega, .inr ⟨by simp; omega, rfl, rfl, rfl⟩⟩⟩⟩

theorem y_skipLine : Yields skipLine m cs u m' cs' ↔
    (∃ b, BreakAt cs b cs' ∧ m' = m.newline (cs.length - cs'.length)) ∨ (Heads (fun c => ¬ Brk c) cs ∧ m' = m ∧ cs' = cs) := by
  have key : Yields skipLine m cs u m' cs' ↔ ∃ t, Yields (readLine []) m cs t m' cs' := by
    unfold skipLine readLine
    simp only [y_bind, y_peek0, y_ite, y_pure, y_peek1]
    constructor
    · rintro ⟨c, _, _, ⟨r, rfl, rfl, rfl⟩, h⟩
      rcases h with ⟨hc, d, _, _, ⟨_, r', h, h', rfl, rfl⟩, hp⟩ | ⟨hc, ⟨hb, hp⟩ | ⟨hb, _, rfl, rfl⟩⟩
      · exact ⟨_, c, _, _, ⟨r, rfl, rfl, rfl⟩, .inl ⟨hc, d, _, _, ⟨_, r', h, h', rfl, rfl⟩, (), _, _, hp, rfl, rfl, rfl⟩⟩
      · simp [isBreak] at hb
        by_cases h2 : (c == 0xA || c == 0x85) = true
        · exact ⟨_, c, _, _, ⟨r, rfl, rfl, rfl⟩, .inr ⟨hc, .inl ⟨h2, (), _, _, hp, rfl, rfl, rfl⟩⟩⟩
        · refine ⟨_, c, _, _, ⟨r, rfl, rfl, rfl⟩, .inr ⟨hc, .inr ⟨h2, .inl ⟨?_, (), _, _, hp, rfl, rfl, rfl⟩⟩⟩⟩
          simp at hc h2 ⊢
          omega
      · simp [isBreak] at hb
        refine ⟨_, c, _, _, ⟨r, rfl, rfl, rfl⟩, .inr ⟨hc, .inr ⟨?_, .inr ⟨?_, rfl, rfl, rfl⟩⟩⟩⟩ <;> (simp; omega)
    · rintro ⟨t, c, _, _, ⟨r, rfl, rfl, rfl⟩, h⟩
      rcases h with ⟨hc, d, _, _, ⟨_, r', h, h', rfl, rfl⟩, _, _, _, hp, _, rfl, rfl⟩ | ⟨hc, ⟨hb, _, _, _, hp, _, rfl, rfl⟩ | ⟨hb, ⟨hd, _, _, _, hp, _, rfl, rfl⟩ | ⟨hd, _, rfl, rfl⟩⟩⟩
      · exact ⟨c, _, _, ⟨r, rfl, rfl, rfl⟩, .inl ⟨hc, d, _, _, ⟨_, r', h, h', rfl, rfl⟩, hp⟩⟩
      · refine ⟨c, _, _, ⟨r, rfl, rfl, rfl⟩, .inr ⟨hc, .inl ⟨?_, hp⟩⟩⟩
        simp [isBreak] at hb ⊢; omega
      · refine ⟨c, _, _, ⟨r, rfl, rfl, rfl⟩, .inr ⟨hc, .inl ⟨?_, hp⟩⟩⟩
        simp [isBreak] at hd ⊢; omega
      · refine ⟨c, _, _, ⟨r, rfl, rfl, rfl⟩, .inr ⟨hc,  .inr ⟨?_, trivial, rfl, rfl⟩⟩⟩
        simp [isBreak] at hc hb hd ⊢; omega
  rw [key]
  simp only [y_readLine]
  constructor
  · rintro ⟨t, ⟨b, h1, _, h2⟩ | ⟨h1, _, h2⟩⟩
    · exact .inl ⟨b, h1, h2⟩
    · exact .inr ⟨h1, h2⟩
  · rintro (⟨b, h1, h2⟩ | ⟨h1, h2⟩)
    · exact ⟨_, .inl ⟨b, h1, rfl, h2⟩⟩
    · exact ⟨_, .inr ⟨h1, rfl, h2⟩⟩

/-! ### Runs of characters -/

/-- The mark after `n` characters that are no line breaks. -/
abbrev Mark.steps (m : Mark) (n : Nat) : Mark := { m with index := m.index + n, column := m.column + n }

theorem y_readWhile {p : Nat → Bool} {n : Nat} {s t : Text} (hn : cs.length < n) : Yields (readWhile p n s) m cs t m' cs' ↔
    ∃ l, cs = l ++ cs' ∧ (∀ c ∈ l, p c = true) ∧ Heads (fun c => p c = false) cs' ∧ t = s ++ l ∧ m' = m.steps l.length := by
  induction n generalizing m cs s with
  | zero => omega
  | succ n ih =>
    unfold readWhile
    simp only [y_bind, y_peek0, y_ite, y_pure, y_readC, y_cache1]
    constructor
    · rintro ⟨c, _, _, ⟨r, rfl, rfl, rfl⟩, ⟨hc, _, _, _, ⟨_, h, rfl, rfl⟩, _, _, _, ⟨rfl, rfl⟩, h2⟩ | ⟨hc, rfl, rfl, rfl⟩⟩
      · cases h
        obtain ⟨l, rfl, h3, h4, h5, h6⟩ := (ih (by simp at hn ⊢; omega)).mp h2
        refine ⟨c :: l, rfl, ?_, h4, by simp [h5], ?_⟩
        · intro x hx
          rcases List.mem_cons.mp hx with rfl | hx
          · exact hc
          · exact h3 x hx
        · rw [h6]; simp; omega
      · exact ⟨[], rfl, by simp, ⟨c, r, rfl, by simpa using hc⟩, by simp, rfl⟩
    · rintro ⟨l, rfl, h3, h4, rfl, rfl⟩
      cases l with
      | nil =>
        obtain ⟨c, r, rfl, hc⟩ := h4
        exact ⟨c, _, _, ⟨r, rfl, rfl, rfl⟩, .inr ⟨by simp [hc], by simp, rfl, rfl⟩⟩
      | cons c l =>
        refine ⟨c, _, _, ⟨_, rfl, rfl, rfl⟩, .inl ⟨h3 c (by simp), _, _, _, ⟨c, rfl, rfl, rfl⟩, (), _, _, ⟨rfl, rfl⟩, ?_⟩⟩
        rw [ih (by simp at hn ⊢; omega)]
        exact ⟨l, rfl, fun x hx => h3 x (by simp [hx]), h4, by simp, by simp; omega⟩

theorem y_skipWhile {p : Nat → Bool} {n : Nat} (hn : cs.length < n) : Yields (skipWhile p n) m cs u m' cs' ↔
    ∃ l, cs = l ++ cs' ∧ (∀ c ∈ l, p c = true) ∧ Heads (fun c => p c = false) cs' ∧ m' = m.steps l.length := by
  induction n generalizing m cs with
  | zero => omega
  | succ n ih =>
    unfold skipWhile
    simp only [y_bind, y_peek0, y_ite, y_pure, y_skipC, y_cache1]
    constructor
    · rintro ⟨c, _, _, ⟨r, rfl, rfl, rfl⟩, ⟨hc, _, _, _, ⟨_, h, rfl⟩, _, _, _, ⟨rfl, rfl⟩, h2⟩ | ⟨hc, _, rfl, rfl⟩⟩
      · cases h
        obtain ⟨l, rfl, h3, h4, h6⟩ := (ih (by simp at hn ⊢; omega)).mp h2
        refine ⟨c :: l, rfl, ?_, h4, ?_⟩
        · intro x hx
          rcases List.mem_cons.mp hx with rfl | hx
          · exact hc
          · exact h3 x hx
        · rw [h6]; simp; omega
      · exact ⟨[], rfl, by simp, ⟨c, r, rfl, by simpa using hc⟩, rfl⟩
    · rintro ⟨l, rfl, h3, h4, rfl⟩
      cases l with
      | nil =>
        obtain ⟨c, r, rfl, hc⟩ := h4
        exact ⟨c, _, _, ⟨r, rfl, rfl, rfl⟩, .inr ⟨by simp [hc], trivial, rfl, rfl⟩⟩
      | cons c l =>
        refine ⟨c, _, _, ⟨_, rfl, rfl, rfl⟩, .inl ⟨h3 c (by simp), (), _, _, ⟨c, rfl, rfl⟩, (), _, _, ⟨rfl, rfl⟩, ?_⟩⟩
        rw [ih (by simp at hn ⊢; omega)]
        exact ⟨l, rfl, fun x hx => h3 x (by simp [hx]), h4, by simp; omega⟩

theorem y_skipN {n : Nat} : Yields (skipN n) m cs u m' cs' ↔ ∃ l, cs = l ++ cs' ∧ l.length = n ∧ m' = m.steps n := by
  induction n generalizing m cs with
  | zero =>
    unfold skipN
    rw [y_pure]
    constructor
    · rintro ⟨_, rfl, rfl⟩; exact ⟨[], rfl, rfl, rfl⟩
    · rintro ⟨l, rfl, h, rfl⟩; cases l with
      | nil => exact ⟨rfl, rfl, rfl⟩
      | cons => cases h
  | succ n ih =>
    unfold skipN
    simp only [y_bind, y_skipC, ih]
    constructor
    · rintro ⟨_, _, _, ⟨c, rfl, rfl⟩, l, rfl, h, rfl⟩
      exact ⟨c :: l, rfl, by simp [h], by simp; omega⟩
    · rintro ⟨l, rfl, h, rfl⟩
      cases l with
      | nil => cases h
      | cons c l => exact ⟨(), _, _, ⟨c, rfl, rfl⟩, l, rfl, by simpa using h, by simp; omega⟩

/-! ### Document indicators -/

theorem y_docMark {c : Nat} {b : Bool} (hc : c < 0x80) : Yields (docMark c) m cs b m' cs' →
    m' = m ∧ cs' = cs ∧ (b = true ↔ m.column = 0 ∧ ∃ d r, White d ∧ cs = c :: c :: c :: d :: r) := by
  unfold docMark
  simp only [checkSeq, y_bind, y_get, y_ite, y_pure, y_peek]
  rintro ⟨_, _, _, ⟨rfl, rfl, rfl⟩, ⟨h0, h⟩ | ⟨h0, rfl, rfl, rfl⟩⟩
  · obtain ⟨x, _, _, ⟨c0, _, _, ⟨_, k0, rfl, rfl⟩, h1⟩, h2⟩ := h
    rcases h1 with ⟨e0, c1, _, _, ⟨_, k1, rfl, rfl⟩, h1⟩ | ⟨e0, rfl, rfl, rfl⟩
    · rcases h1 with ⟨e1, c2, _, _, ⟨_, k2, rfl, rfl⟩, h1⟩ | ⟨e1, rfl, rfl, rfl⟩
      · rcases h1 with ⟨e2, rfl, rfl, rfl⟩ | ⟨e2, rfl, rfl, rfl⟩
        · rcases h2 with ⟨_, c3, _, _, ⟨_, k3, rfl, rfl⟩, rfl, rfl, rfl⟩ | ⟨h, _⟩
          · refine ⟨rfl, rfl, ?_⟩
            have e0 : c0 = c := by simpa using e0
            have e1 : c1 = c := by simpa using e1
            have e2 : c2 = c := by simpa using e2
            subst e0 e1 e2
            match cs', k0, k1, k2, k3 with
            | _ :: _ :: _ :: _ :: r, k0, k1, k2, k3 =>
              simp at k0 k1 k2 k3
              subst k0 k1 k2 k3
              rw [white_iff]
              exact ⟨fun h => ⟨h0, _, r, h, rfl⟩, fun ⟨_, _, _, h, e⟩ => by cases e; exact h⟩
          · exact absurd rfl h
        · rcases h2 with ⟨h, _⟩ | ⟨_, rfl, rfl, rfl⟩
          · cases h
          · refine ⟨rfl, rfl, by simp, ?_⟩
            rintro ⟨_, _, _, _, rfl⟩
            simp at k2; subst k2
            exact absurd (by simp) e2
      · rcases h2 with ⟨h, _⟩ | ⟨_, rfl, rfl, rfl⟩
        · cases h
        · refine ⟨rfl, rfl, by simp, ?_⟩
          rintro ⟨_, _, _, _, rfl⟩
          simp at k1; subst k1
          exact absurd (by simp) e1
    · rcases h2 with ⟨h, _⟩ | ⟨_, rfl, rfl, rfl⟩
      · cases h
      · refine ⟨rfl, rfl, by simp, ?_⟩
        rintro ⟨_, _, _, _, rfl⟩
        simp at k0; subst k0
        exact absurd (by simp) e0
  · exact ⟨rfl, rfl, by simp, fun h => absurd h.1 h0⟩

theorem docMark_total {c : Nat} (hc : c < 0x80) (h0 : c ≠ 0) (hz : 0 ∈ cs) : ∃ b, Yields (docMark c) m cs b m cs := by
  unfold docMark
  simp only [checkSeq, y_bind, y_get, y_ite, y_pure, y_peek]
  by_cases hm : m.column = 0
  · match cs, hz with
    | a :: r, hz =>
      by_cases ha : a = c
      · subst ha
        match r, hz with
        | [], hz => simp at hz; exact absurd hz.symm h0
        | b :: r, hz =>
          by_cases hb : b = a
          · subst hb
            match r, hz with
            | [], hz => simp at hz; exact absurd hz.symm h0
            | d :: r, hz =>
              by_cases hd : d = b
              · subst hd
                match r, hz with
                | [], hz => simp at hz; exact absurd hz.symm h0
                | e :: r, hz =>
                  exact ⟨isBlankz e, _, _, _, ⟨rfl, rfl, rfl⟩, .inl ⟨hm, true, _, _, ⟨d, _, _, ⟨by simp, rfl, rfl, rfl⟩, .inl ⟨by simp, d, _, _, ⟨by simpa using hc, rfl, rfl, rfl⟩, .inl ⟨by simp, d, _, _, ⟨by simpa using hc, rfl, rfl, rfl⟩, .inl ⟨by simp, rfl, rfl, rfl⟩⟩⟩⟩, .inl ⟨rfl, e, _, _, ⟨by simpa using hc, rfl, rfl, rfl⟩, rfl, rfl, rfl⟩⟩⟩
              · exact ⟨false, _, _, _, ⟨rfl, rfl, rfl⟩, .inl ⟨hm, false, _, _, ⟨b, _, _, ⟨by simp, rfl, rfl, rfl⟩, .inl ⟨by simp, b, _, _, ⟨by simpa using hc, rfl, rfl, rfl⟩, .inl ⟨by simp, d, _, _, ⟨by simpa using hc, rfl, rfl, rfl⟩, .inr ⟨by simpa using hd, rfl, rfl, rfl⟩⟩⟩⟩, .inr ⟨by simp, rfl, rfl, rfl⟩⟩⟩
          · exact ⟨false, _, _, _, ⟨rfl, rfl, rfl⟩, .inl ⟨hm, false, _, _, ⟨a, _, _, ⟨by simp, rfl, rfl, rfl⟩, .inl ⟨by simp, b, _, _, ⟨by simpa using hc, rfl, rfl, rfl⟩, .inr ⟨by simpa using hb, rfl, rfl, rfl⟩⟩⟩, .inr ⟨by simp, rfl, rfl, rfl⟩⟩⟩
      · exact ⟨false, _, _, _, ⟨rfl, rfl, rfl⟩, .inl ⟨hm, false, _, _, ⟨a, _, _, ⟨by simp, rfl, rfl, rfl⟩, .inr ⟨by simpa using ha, rfl, rfl, rfl⟩⟩, .inr ⟨by simp, rfl, rfl, rfl⟩⟩⟩
  · exact ⟨false, _, _, _, ⟨rfl, rfl, rfl⟩, .inr ⟨hm, rfl, rfl, rfl⟩⟩

theorem docIndicator_says {b : Bool} (h : Yields docIndicator m cs b m' cs') : m' = m ∧ cs' = cs ∧ (b = true ↔ DocAt m.column cs) := by
  unfold docIndicator at h
  simp only [y_bind, y_ite, y_pure] at h
  obtain ⟨x, _, _, h1, h2⟩ := h
  obtain ⟨rfl, rfl, h1⟩ := y_docMark (by decide) h1
  unfold DocAt
  rcases h2 with ⟨hx, rfl, rfl, rfl⟩ | ⟨hx, h2⟩
  · refine ⟨rfl, rfl, fun _ => ?_, fun _ => rfl⟩
    obtain ⟨k0, d, r, k1, k2⟩ := h1.mp hx
    exact ⟨k0, d, r, k1, .inl k2⟩
  · obtain ⟨rfl, rfl, h2⟩ := y_docMark (by decide) h2
    refine ⟨rfl, rfl, fun hb => ?_, ?_⟩
    · obtain ⟨k0, d, r, k1, k2⟩ := h2.mp hb
      exact ⟨k0, d, r, k1, .inr k2⟩
    · rintro ⟨k0, d, r, k1, k2 | k2⟩
      · exact absurd (h1.mpr ⟨k0, d, r, k1, k2⟩) hx
      · exact h2.mpr ⟨k0, d, r, k1, k2⟩

theorem y_docIndicator {b : Bool} (hz : 0 ∈ cs) : Yields docIndicator m cs b m' cs' ↔ m' = m ∧ cs' = cs ∧ (b = true ↔ DocAt m.column cs) := by
  constructor
  · exact docIndicator_says
  · rintro ⟨rfl, rfl, hb⟩
    have : ∃ b, Yields docIndicator m' cs' b m' cs' := by
      unfold docIndicator
      simp only [y_bind, y_ite, y_pure]
      obtain ⟨b1, h1⟩ := docMark_total (m := m') (c := 45) (by decide) (by decide) hz
      obtain ⟨b2, h2⟩ := docMark_total (m := m') (c := 46) (by decide) (by decide) hz
      cases b1 with
      | true => exact ⟨true, _, _, _, h1, .inl ⟨rfl, rfl, rfl, rfl⟩⟩
      | false => exact ⟨b2, _, _, _, h1, .inr ⟨by simp, h2⟩⟩
    obtain ⟨b', h'⟩ := this
    have := (docIndicator_says h').2.2
    have : b = b' := by
      cases b <;> cases b' <;> simp_all
    rw [this]
    exact h'

end LibYaml
