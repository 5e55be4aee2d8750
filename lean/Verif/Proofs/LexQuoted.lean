import Verif.Proofs.Yields

/-!
# White space in scalars, and quoted scalars, against the lexical rules
-/

namespace LibYaml

open Spec

variable {m m' : Mark} {cs cs' : Text}

/-! ### White space -/

/-- A tab that is not used for indentation. -/
abbrev tabOk (indent : Int) (k c : Nat) : Prop := ¬ (c = 0x9 ∧ (k : Int) < indent)

theorem tabOk_zero : tabOk 0 = fun _ _ => True := by
  funext k c
  simp [tabOk]

theorem all_cons {p : Nat → Prop} {c : Nat} {l : List Nat} (h : p c) (hl : ∀ x ∈ l, p x) : ∀ x ∈ c :: l, p x := by
  intro x hx
  rcases List.mem_cons.mp hx with rfl | hx
  · exact h
  · exact hl x hx

/-- A blank that stands for indentation of a line. -/
theorem not_blank_brk {c : Nat} (h : Brk c) : ¬ Blank c := by
  simp [Brk, Blank] at *; omega

theorem Spec.Lines.stops {ok : Nat → Nat → Prop} {k k' : Nat} {bs : List Nat} (h : Lines ok k cs bs cs' k') : ∃ c r, cs' = c :: r ∧ ¬ Blank c ∧ ¬ Brk c := by
  induction h with
  | done col c r h1 h2 => exact ⟨c, r, rfl, h1, h2⟩
  | blank _ _ _ ih => exact ih
  | «break» _ _ ih => exact ih

theorem Spec.Lines.length {ok : Nat → Nat → Prop} {k k' : Nat} {bs : List Nat} (h : Lines ok k cs bs cs' k') : cs'.length ≤ cs.length := by
  induction h with
  | done col c r h1 h2 => exact Nat.le_refl _
  | blank _ _ _ ih => simp only [List.length_cons]; omega
  | «break» hb _ ih => have := hb.length; omega

/-- The white space after a line break. -/
theorem lines_sound {start : Mark} {indent : Int} {n : Nat} {g g' : Gap} (hg : g.blanks = true) (h : Yields (plainBlanks start indent n g) m cs g' m' cs') :
    ∃ bs, Lines (tabOk indent) m.column cs bs cs' m'.column ∧ g' = { g with trailing := g.trailing ++ bs } := by
  induction n generalizing m cs g with
  | zero => cases h
  | succ n ih =>
    unfold plainBlanks at h
    simp only [y_bind, y_peek0, y_ite, y_pure, y_cache1, y_cache2, y_get, y_skipC, y_readC, y_err, and_false, false_or] at h
    obtain ⟨c, _, _, ⟨r, rfl, rfl, rfl⟩, h⟩ := h
    rcases h with ⟨hb, ⟨_, _, _, _, ⟨rfl, rfl, rfl⟩, ht, _, _, _, ⟨_, e, rfl⟩, _, _, _, ⟨rfl, rfl⟩, h⟩ | ⟨hc, _⟩⟩ | ⟨hb, ⟨hk, _, _, _, ⟨rfl, rfl⟩, h⟩ | ⟨hk, rfl, rfl, rfl⟩⟩
    · cases e
      obtain ⟨bs, h1, h2⟩ := ih hg h
      exact ⟨bs, .blank (blank_iff.mp hb) (fun e => ht ⟨e.2, by simp [isTab, e.1]⟩) h1, h2⟩
    · exact absurd hg hc
    · rcases h with ⟨_, t, _, _, h, _, _, _, ⟨rfl, rfl⟩, h'⟩ | ⟨hc, _⟩
      · rw [y_readLine] at h
        rcases h with ⟨b, hb', rfl, rfl⟩ | ⟨⟨_, _, e, he⟩, _⟩
        · obtain ⟨bs, h1, h2⟩ := ih (g := { g with trailing := g.trailing ++ [b] }) hg h'
          exact ⟨b :: bs, .break hb' h1, by rw [h2]; simp⟩
        · cases e
          exact absurd (brk_iff.mp hk) he
      · exact absurd hg hc
    · refine ⟨[], .done _ _ _ ?_ ?_, by simp⟩
      · rw [← blank_iff]; exact hb
      · rw [← brk_iff]; exact hk

theorem lines_complete {start : Mark} {indent : Int} {n k k' : Nat} {g : Gap} {bs : List Nat} (h : Lines (tabOk indent) k cs bs cs' k') (hm : m.column = k)
    (hg : g.blanks = true) (hn : cs.length < n) :
    ∃ m', Yields (plainBlanks start indent n g) m cs { g with trailing := g.trailing ++ bs } m' cs' ∧ m'.column = k' := by
  induction h generalizing m n g with
  | done col c r h1 h2 =>
    cases n with
    | zero => omega
    | succ n =>
      refine ⟨m, ?_, hm⟩
      unfold plainBlanks
      simp only [y_bind, y_peek0, y_ite, y_pure]
      exact ⟨c, _, _, ⟨r, rfl, rfl, rfl⟩, .inr ⟨by rw [blank_iff]; exact h1, .inr ⟨by rw [brk_iff]; exact h2, by simp, rfl, rfl⟩⟩⟩
  | @blank col c cs bs rest col' hb hok _ ih =>
    cases n with
    | zero => omega
    | succ n =>
      obtain ⟨m', h1, h2⟩ := ih (m := m.step) (n := n) (g := g) (by simp [hm]) hg (by simp at hn; omega)
      refine ⟨m', ?_, h2⟩
      unfold plainBlanks
      simp only [y_bind, y_peek0, y_ite, y_pure, y_get, y_skipC, y_cache1, y_err, and_false, false_or]
      refine ⟨c, _, _, ⟨cs, rfl, rfl, rfl⟩, .inl ⟨blank_iff.mpr hb, .inl ⟨hg, _, _, _, ⟨rfl, rfl, rfl⟩, ?_, (), _, _, ⟨c, rfl, rfl⟩, (), _, _, ⟨rfl, rfl⟩, h1⟩⟩⟩
      rintro ⟨h3, h4⟩
      exact hok ⟨by simpa [isTab] using h4, by rw [← hm]; exact h3⟩
  | @«break» col cs b cs' bs rest col' hb _ ih =>
    cases n with
    | zero => omega
    | succ n =>
      have hlen := hb.length
      obtain ⟨m', h1, h2⟩ := ih (m := m.newline (cs.length - cs'.length)) (n := n) (g := { g with trailing := g.trailing ++ [b] }) rfl hg (by omega)
      refine ⟨m', ?_, h2⟩
      unfold plainBlanks
      simp only [y_bind, y_peek0, y_ite, y_pure, y_cache1, y_cache2, y_readLine]
      obtain ⟨c, r, rfl, hc⟩ := hb.head
      refine ⟨c, _, _, ⟨_, rfl, rfl, rfl⟩, .inr ⟨by rw [blank_iff]; exact not_blank_brk hc, .inl ⟨brk_iff.mpr hc, (), _, _, ⟨rfl, rfl⟩, .inl ⟨hg, _, _, _, .inl ⟨b, hb, rfl, rfl⟩, (), _, _, ⟨rfl, rfl⟩, ?_⟩⟩⟩⟩
      simpa using h1

/-- What a gap denotes. -/
theorem joinGap_eq {s : Text} {g : Gap} : joinGap s g = s ++ joinGap [] g := by
  unfold joinGap
  split
  · split
    · split <;> simp
    · simp
  · simp

theorem joinGap_fold {s : Text} {w : Text} {b : Nat} {bs : Text} : joinGap s { blanks := true, white := w, leading := [b], trailing := bs } = s ++ fold (b :: bs) := by
  unfold joinGap fold
  simp
  by_cases hb : b = 0xA
  · simp [hb]
    split <;> simp
  · simp [hb]

/-- The white space of a scalar, from its first blank. `g.white` are blanks that were read before. -/
theorem gap_sound {start : Mark} {indent : Int} {n : Nat} {w : Text} {g' : Gap} (h : Yields (plainBlanks start indent n { white := w }) m cs g' m' cs') :
    (∃ ws c r, cs = ws ++ c :: r ∧ (∀ x ∈ ws, Blank x) ∧ ¬ Blank c ∧ ¬ Brk c ∧ cs' = c :: r ∧ m'.column = m.column + ws.length ∧ g' = { white := w ++ ws }) ∨
    (∃ ws cs1 b cs2 bs, cs = ws ++ cs1 ∧ (∀ x ∈ ws, Blank x) ∧ BreakAt cs1 b cs2 ∧ Lines (tabOk indent) 0 cs2 bs cs' m'.column ∧
      g' = { blanks := true, white := [], leading := [b], trailing := bs }) := by
  induction n generalizing m cs w with
  | zero => cases h
  | succ n ih =>
    unfold plainBlanks at h
    simp only [y_bind, y_peek0, y_ite, y_pure, y_cache1, y_cache2, y_get, y_skipC, y_readC, y_err, and_false, false_or, Bool.false_eq_true, false_and,
      not_false_eq_true, true_and] at h
    obtain ⟨c, _, _, ⟨r, rfl, rfl, rfl⟩, h⟩ := h
    rcases h with ⟨hb, _, _, _, ⟨_, e, rfl, rfl⟩, _, _, _, ⟨rfl, rfl⟩, h⟩ | ⟨hb, ⟨hk, _, _, _, ⟨rfl, rfl⟩, h⟩ | ⟨hk, rfl, rfl, rfl⟩⟩
    · cases e
      rcases ih h with ⟨ws, d, r', rfl, h1, h2, h3, h4, h5, rfl⟩ | ⟨ws, cs1, b, cs2, bs, rfl, h1, h2, h3, h4⟩
      · refine .inl ⟨c :: ws, d, r', rfl, ?_, h2, h3, h4, by rw [h5]; simp; omega, by simp⟩
        exact all_cons (blank_iff.mp hb) h1
      · refine .inr ⟨c :: ws, cs1, b, cs2, bs, rfl, ?_, h2, h3, h4⟩
        exact all_cons (blank_iff.mp hb) h1
    · obtain ⟨t, _, _, h, _, _, _, ⟨rfl, rfl⟩, h'⟩ := h
      rw [y_readLine] at h
      rcases h with ⟨b, hb', rfl, rfl⟩ | ⟨⟨_, _, e, he⟩, _⟩
      · obtain ⟨bs, h1, h2⟩ := lines_sound rfl h'
        exact .inr ⟨[], _, b, _, bs, rfl, by simp, hb', h1, by rw [h2]; simp⟩
      · cases e
        exact absurd (brk_iff.mp hk) he
    · exact .inl ⟨[], c, r, rfl, by simp, by rw [← blank_iff]; exact hb, by rw [← brk_iff]; exact hk, rfl, rfl, by simp⟩

theorem gap_inline {start : Mark} {indent : Int} {n : Nat} {w ws r : Text} {c : Nat} (hws : ∀ x ∈ ws, Blank x) (h1 : ¬ Blank c) (h2 : ¬ Brk c)
    (hn : ws.length < n) : ∃ m', Yields (plainBlanks start indent n { white := w }) m (ws ++ c :: r) { white := w ++ ws } m' (c :: r) ∧ m'.column = m.column + ws.length := by
  induction ws generalizing m n w with
  | nil =>
    cases n with
    | zero => omega
    | succ n =>
      refine ⟨m, ?_, rfl⟩
      unfold plainBlanks
      simp only [y_bind, y_peek0, y_ite, y_pure]
      exact ⟨c, _, _, ⟨r, rfl, rfl, rfl⟩, .inr ⟨by rw [blank_iff]; exact h1, .inr ⟨by rw [brk_iff]; exact h2, by simp, rfl, rfl⟩⟩⟩
  | cons x ws ih =>
    cases n with
    | zero => simp at hn
    | succ n =>
      obtain ⟨m', h3, h4⟩ := ih (m := m.step) (n := n) (w := w ++ [x]) (fun y hy => hws y (by simp [hy])) (by simp at hn; omega)
      refine ⟨m', ?_, by rw [h4]; simp; omega⟩
      unfold plainBlanks
      simp only [y_bind, y_peek0, y_ite, y_pure, y_readC, y_cache1]
      refine ⟨x, _, _, ⟨_, rfl, rfl, rfl⟩, .inl ⟨blank_iff.mpr (hws x (by simp)), .inr ⟨by simp, _, _, _, ⟨x, rfl, rfl, rfl⟩, (), _, _, ⟨rfl, rfl⟩, ?_⟩⟩⟩
      simpa using h3

theorem gap_lines {start : Mark} {indent : Int} {n k : Nat} {w ws cs1 cs2 : Text} {b : Nat} {bs : List Nat} (hws : ∀ x ∈ ws, Blank x) (hb : BreakAt cs1 b cs2)
    (hl : Lines (tabOk indent) 0 cs2 bs cs' k) (hn : (ws ++ cs1).length < n) :
    ∃ m', Yields (plainBlanks start indent n { white := w }) m (ws ++ cs1) { blanks := true, white := [], leading := [b], trailing := bs } m' cs' ∧ m'.column = k := by
  induction ws generalizing m n w with
  | nil =>
    cases n with
    | zero => omega
    | succ n =>
      have hlen := hb.length
      obtain ⟨m', h1, h2⟩ := lines_complete (start := start) (m := m.newline (cs1.length - cs2.length)) (n := n) (g := { blanks := true, leading := [b] }) hl rfl rfl
        (by simp at hn; omega)
      refine ⟨m', ?_, h2⟩
      unfold plainBlanks
      simp only [y_bind, y_peek0, y_ite, y_pure, y_cache1, y_cache2, y_readLine]
      obtain ⟨c, r, rfl, hc⟩ := hb.head
      refine ⟨c, _, _, ⟨_, rfl, rfl, rfl⟩, .inr ⟨by rw [blank_iff]; exact not_blank_brk hc, .inl ⟨brk_iff.mpr hc, (), _, _, ⟨rfl, rfl⟩, .inr ⟨by simp, _, _, _, .inl ⟨b, hb, rfl, rfl⟩, (), _, _, ⟨rfl, rfl⟩, ?_⟩⟩⟩⟩
      simpa using h1
  | cons x ws ih =>
    cases n with
    | zero => simp at hn
    | succ n =>
      obtain ⟨m', h3, h4⟩ := ih (m := m.step) (n := n) (w := w ++ [x]) (fun y hy => hws y (by simp [hy])) (by simp at hn ⊢; omega)
      refine ⟨m', ?_, h4⟩
      unfold plainBlanks
      simp only [y_bind, y_peek0, y_ite, y_pure, y_readC, y_cache1]
      exact ⟨x, _, _, ⟨_, rfl, rfl, rfl⟩, .inl ⟨blank_iff.mpr (hws x (by simp)), .inr ⟨by simp, _, _, _, ⟨x, rfl, rfl, rfl⟩, (), _, _, ⟨rfl, rfl⟩, h3⟩⟩⟩

/-- White space that is there, in terms of the rule. -/
theorem space_sound {start : Mark} {indent : Int} {n : Nat} {g : Gap} (h : Yields (plainBlanks start indent n {}) m cs g m' cs') (hc : Heads (fun c => Blank c ∨ Brk c) cs) :
    ∃ w, Space (tabOk indent) m.column cs w cs' m'.column g.blanks ∧ ∀ s, joinGap s g = s ++ w := by
  rcases gap_sound (w := []) h with ⟨ws, c, r, rfl, h1, h2, h3, rfl, h5, rfl⟩ | ⟨ws, cs1, b, cs2, bs, rfl, h1, h2, h3, rfl⟩
  · refine ⟨ws, ?_, fun s => by simp [joinGap]⟩
    rw [h5]
    refine .inline _ ws c r ?_ h1 h2 h3
    rintro rfl
    obtain ⟨_, _, e, he⟩ := hc
    cases e
    rcases he with he | he
    · exact h2 he
    · exact h3 he
  · exact ⟨_, .lines _ ws h1 h2 h3, fun s => joinGap_fold⟩

theorem space_complete {start : Mark} {indent : Int} {n k k' : Nat} {w : Text} {line : Bool} (h : Space (tabOk indent) k cs w cs' k' line) (hm : m.column = k)
    (hn : cs.length < n) : ∃ g m', Yields (plainBlanks start indent n {}) m cs g m' cs' ∧ m'.column = k' ∧ g.blanks = line ∧ ∀ s, joinGap s g = s ++ w := by
  subst hm
  cases h with
  | inline ws c r h0 h1 h2 h3 =>
    obtain ⟨m', h4, h5⟩ := gap_inline (start := start) (indent := indent) (m := m) (r := r) (w := []) h1 h2 h3 (n := n) (by simp at hn; omega)
    exact ⟨_, m', h4, h5, rfl, fun s => by simp [joinGap]⟩
  | lines ws h1 h2 h3 =>
    obtain ⟨m', h4, h5⟩ := gap_lines (start := start) (m := m) (w := []) h1 h2 h3 hn
    exact ⟨_, m', h4, h5, rfl, fun s => joinGap_fold⟩

/-- In a quoted scalar tabs may be used everywhere. -/
theorem flowBlanks_iff {start : Mark} {n : Nat} {g g' : Gap} : Yields (flowBlanks n g) m cs g' m' cs' ↔ Yields (plainBlanks start 0 n g) m cs g' m' cs' := by
  have : ∀ n g, flowBlanks n g = plainBlanks start 0 n g := by
    intro n
    induction n with
    | zero => intro g; rfl
    | succ n ih =>
      intro g
      unfold flowBlanks plainBlanks
      simp only [ih]
      rfl
  rw [this]

theorem Spec.Space.length {ok : Nat → Nat → Prop} {k k' : Nat} {w : Text} {line : Bool} (h : Space ok k cs w cs' k' line) : cs'.length < cs.length := by
  cases h with
  | inline ws c r h0 h1 h2 h3 =>
    cases w with
    | nil => exact absurd rfl h0
    | cons => simp; omega
  | lines ws h1 h2 h3 =>
    have := h2.length
    have := h3.length
    simp; omega

theorem Spec.Space.head {ok : Nat → Nat → Prop} {k k' : Nat} {w : Text} {line : Bool} (h : Space ok k cs w cs' k' line) : Heads (fun c => Blank c ∨ Brk c) cs := by
  cases h with
  | inline ws c r h0 h1 h2 h3 =>
    cases w with
    | nil => exact absurd rfl h0
    | cons x ws => exact ⟨x, _, rfl, .inl (h1 x (by simp))⟩
  | lines ws h1 h2 h3 =>
    cases ws with
    | nil =>
      obtain ⟨c, r, rfl, hc⟩ := h2.head
      exact ⟨c, r, rfl, .inr hc⟩
    | cons x ws => exact ⟨x, _, rfl, .inl (h1 x (by simp))⟩

theorem Spec.Space.stops {ok : Nat → Nat → Prop} {k k' : Nat} {w : Text} {line : Bool} (h : Space ok k cs w cs' k' line) : ∃ c r, cs' = c :: r ∧ ¬ Blank c ∧ ¬ Brk c := by
  cases h with
  | inline ws c r h0 h1 h2 h3 => exact ⟨c, r, rfl, h2, h3⟩
  | lines ws h1 h2 h3 => exact h3.stops

/-! ### Escapes -/

theorem ite_some {p : Prop} [Decidable p] {x y : Option Nat} {v : Nat} (h : (if p then x else y) = some v) : (p ∧ x = some v) ∨ (¬ p ∧ y = some v) := by
  by_cases hp : p
  · rw [if_pos hp] at h; exact .inl ⟨hp, h⟩
  · rw [if_neg hp] at h; exact .inr ⟨hp, h⟩

theorem escape_iff {c v : Nat} : simpleEscape c = some v ↔ ∃ ch : Char, (ch, v) ∈ escapes ∧ c = ch.toNat := by
  constructor
  · intro h
    unfold simpleEscape at h
    rcases ite_some h with ⟨hc, h⟩ | ⟨_, h⟩
    · cases h; exact ⟨'0', by decide, by simpa using hc⟩
    rcases ite_some h with ⟨hc, h⟩ | ⟨_, h⟩
    · cases h; exact ⟨'a', by decide, by simpa using hc⟩
    rcases ite_some h with ⟨hc, h⟩ | ⟨_, h⟩
    · cases h; exact ⟨'b', by decide, by simpa using hc⟩
    rcases ite_some h with ⟨hc, h⟩ | ⟨_, h⟩
    · cases h
      have hc : c = 116 ∨ c = 9 := by simpa using hc
      rcases hc with hc | hc
      · exact ⟨'t', by decide, hc⟩
      · exact ⟨'\t', by decide, hc⟩
    rcases ite_some h with ⟨hc, h⟩ | ⟨_, h⟩
    · cases h; exact ⟨'n', by decide, by simpa using hc⟩
    rcases ite_some h with ⟨hc, h⟩ | ⟨_, h⟩
    · cases h; exact ⟨'v', by decide, by simpa using hc⟩
    rcases ite_some h with ⟨hc, h⟩ | ⟨_, h⟩
    · cases h; exact ⟨'f', by decide, by simpa using hc⟩
    rcases ite_some h with ⟨hc, h⟩ | ⟨_, h⟩
    · cases h; exact ⟨'r', by decide, by simpa using hc⟩
    rcases ite_some h with ⟨hc, h⟩ | ⟨_, h⟩
    · cases h; exact ⟨'e', by decide, by simpa using hc⟩
    rcases ite_some h with ⟨hc, h⟩ | ⟨_, h⟩
    · cases h; exact ⟨' ', by decide, by simpa using hc⟩
    rcases ite_some h with ⟨hc, h⟩ | ⟨_, h⟩
    · cases h; exact ⟨'"', by decide, by simpa using hc⟩
    rcases ite_some h with ⟨hc, h⟩ | ⟨_, h⟩
    · cases h; exact ⟨'/', by decide, by simpa using hc⟩
    rcases ite_some h with ⟨hc, h⟩ | ⟨_, h⟩
    · cases h; exact ⟨'\\', by decide, by simpa using hc⟩
    rcases ite_some h with ⟨hc, h⟩ | ⟨_, h⟩
    · cases h; exact ⟨'N', by decide, by simpa using hc⟩
    rcases ite_some h with ⟨hc, h⟩ | ⟨_, h⟩
    · cases h; exact ⟨'_', by decide, by simpa using hc⟩
    rcases ite_some h with ⟨hc, h⟩ | ⟨_, h⟩
    · cases h; exact ⟨'L', by decide, by simpa using hc⟩
    rcases ite_some h with ⟨hc, h⟩ | ⟨_, h⟩
    · cases h; exact ⟨'P', by decide, by simpa using hc⟩
    cases h
  · rintro ⟨ch, h, rfl⟩
    simp [escapes] at h
    rcases h with h | h | h | h | h | h | h | h | h | h | h | h | h | h | h | h | h | h <;> (obtain ⟨rfl, rfl⟩ := h; rfl)

theorem codes_iff {c n : Nat} : codeLength c = some n ↔ ∃ ch : Char, (ch, n) ∈ codes ∧ c = ch.toNat := by
  constructor
  · intro h
    unfold codeLength at h
    rcases ite_some h with ⟨hc, h⟩ | ⟨_, h⟩
    · cases h; exact ⟨'x', by decide, by simpa using hc⟩
    rcases ite_some h with ⟨hc, h⟩ | ⟨_, h⟩
    · cases h; exact ⟨'u', by decide, by simpa using hc⟩
    rcases ite_some h with ⟨hc, h⟩ | ⟨_, h⟩
    · cases h; exact ⟨'U', by decide, by simpa using hc⟩
    cases h
  · rintro ⟨ch, h, rfl⟩
    simp [codes] at h
    rcases h with h | h | h <;> (obtain ⟨rfl, rfl⟩ := h; rfl)

theorem codes_plain {ch : Char} {n : Nat} (h : (ch, n) ∈ codes) : simpleEscape ch.toNat = none ∧ n ≤ 6144 ∧ ch.toNat < 0x80 ∧ ch.toNat ≠ 0 ∧ ¬ Brk ch.toNat := by
  simp [codes] at h
  rcases h with h | h | h <;> (obtain ⟨rfl, rfl⟩ := h; exact ⟨rfl, by omega, by decide, by decide, by simp [Brk]⟩)

theorem escapes_plain {ch : Char} {n : Nat} (h : (ch, n) ∈ escapes) : ch.toNat < 0x80 ∧ ch.toNat ≠ 0 ∧ ¬ Brk ch.toNat := by
  have : ∀ p ∈ escapes, p.1.toNat < 0x80 ∧ p.1.toNat ≠ 0 ∧ ¬ p.1.toNat ∈ [0xA, 0xD, 0x85, 0x2028, 0x2029] := by decide
  exact this _ h

theorem y_hexValue {start : Mark} {n v w : Nat} {pre r : Text} (hp : ∀ x ∈ pre, x < 0x80) : Yields (hexValue start n pre.length v) m (pre ++ r) w m' cs' ↔
    m' = m ∧ cs' = pre ++ r ∧ ∃ ds r', r = ds ++ r' ∧ ds.length = n ∧ HexNum v ds w := by
  induction n generalizing v pre r with
  | zero =>
    unfold hexValue
    rw [y_pure]
    constructor
    · rintro ⟨rfl, rfl, rfl⟩; exact ⟨rfl, rfl, [], r, rfl, rfl, .nil _⟩
    · rintro ⟨rfl, rfl, ds, r', rfl, h, hd⟩
      cases ds with
      | nil => cases hd; exact ⟨rfl, rfl, rfl⟩
      | cons => cases h
  | succ n ih =>
    unfold hexValue
    simp only [y_bind, y_peek, y_ite, y_err, and_false, or_false]
    constructor
    · rintro ⟨c, _, _, ⟨_, hc, rfl, rfl⟩, hx, h⟩
      cases r with
      | nil => simp at hc
      | cons d r =>
        simp at hc
        subst hc
        have hh := Hex.of hx
        have := (ih (pre := pre ++ [d]) (r := r) (by
          intro x hx'
          rcases List.mem_append.mp hx' with h | h
          · exact hp x h
          · simp at h; subst h; exact hh.value.2.2.1)).mp (by simpa using h)
        obtain ⟨rfl, rfl, ds, r', rfl, h1, h2⟩ := this
        exact ⟨rfl, by simp, d :: ds, r', rfl, by simp [h1], .cons hh h2⟩
    · rintro ⟨rfl, rfl, ds, r', rfl, h, hd⟩
      cases hd with
      | nil => cases h
      | @cons _ c d ds _ hh hd =>
        refine ⟨c, _, _, ⟨?_, ?_, rfl, rfl⟩, hh.value.1, ?_⟩
        · intro x hx; rw [List.take_append_of_le_length (Nat.le_refl _), List.take_length] at hx; exact hp x hx
        · simp
        · have := (ih (pre := pre ++ [c]) (r := ds ++ r') (v := v * 16 + d) (by
            intro x hx'
            rcases List.mem_append.mp hx' with h | h
            · exact hp x h
            · simp at h; subst h; exact hh.value.2.2.1)).mpr ⟨rfl, by simp, ds, r', rfl, by simpa using h, hd⟩
          rw [hh.value.2.1]
          simpa using this

theorem y_hexValue0 {start : Mark} {n w : Nat} : Yields (hexValue start n 0 0) m cs w m' cs' ↔
    m' = m ∧ cs' = cs ∧ ∃ ds r', cs = ds ++ r' ∧ ds.length = n ∧ HexNum 0 ds w := by
  have := y_hexValue (m := m) (m' := m') (cs' := cs') (start := start) (n := n) (v := 0) (w := w) (pre := []) (r := cs) (by simp)
  simpa using this

/-- An escape sequence. -/
theorem y_escape {start : Mark} {s t r : Text} : Yields (scanEscape start s) m (0x5C :: r) t m' cs' ↔
    ∃ src v, QChar false (0x5C :: src) v ∧ r = src ++ cs' ∧ t = s ++ [v] ∧ m' = m.steps (src.length + 1) := by
  unfold scanEscape
  rw [y_bind]
  simp only [y_peek1]
  constructor
  · rintro ⟨c, _, _, ⟨_, r', e, _, rfl, rfl⟩, h⟩
    cases e
    cases he : simpleEscape c with
    | some v =>
      rw [he] at h
      simp only [y_bind, y_skipC, y_pure] at h
      obtain ⟨_, _, _, ⟨_, e, rfl⟩, _, _, _, ⟨_, e', rfl⟩, rfl, rfl, rfl⟩ := h
      cases e; cases e'
      obtain ⟨ch, h1, rfl⟩ := escape_iff.mp he
      exact ⟨[ch.toNat], v, .escape ch v h1, rfl, rfl, rfl⟩
    | none =>
      rw [he] at h
      cases hc : codeLength c with
      | none => rw [hc] at h; exact absurd h y_err
      | some n =>
        rw [hc] at h
        obtain ⟨ch, h1, rfl⟩ := codes_iff.mp hc
        simp only [y_bind, y_skipC, y_pure, y_cache (codes_plain h1).2.1, y_ite, y_err, and_false, false_or, y_hexValue0, y_skipN] at h
        obtain ⟨_, _, _, ⟨_, e, rfl⟩, _, _, _, ⟨_, e', rfl⟩, _, _, _, ⟨rfl, rfl⟩, v, _, _, ⟨rfl, rfl, ds, r'', rfl, h2, h3⟩, h4, _, _, _, ⟨l, h5, h6, rfl⟩, rfl, rfl, rfl⟩ := h
        cases e; cases e'
        obtain ⟨rfl, rfl⟩ := List.append_inj h5 (by omega)
        refine ⟨ch.toNat :: ds, v, .code ch n v ds h1 h2 h3 ?_ ?_, rfl, rfl, by simp [h2]; omega⟩ <;> omega
  · rintro ⟨src, v, hq, rfl, rfl, rfl⟩
    cases hq with
    | self _ c hw hs => exact absurd rfl hs.2
    | escape ch v h =>
      refine ⟨ch.toNat, _, _, ⟨_, _, rfl, by decide, rfl, rfl⟩, ?_⟩
      rw [escape_iff.mpr ⟨ch, h, rfl⟩]
      simp only [y_bind, y_skipC, y_pure]
      exact ⟨(), _, _, ⟨_, rfl, rfl⟩, (), _, _, ⟨_, rfl, rfl⟩, trivial, rfl, rfl⟩
    | code ch n v ds h1 h2 h3 h4 h5 =>
      refine ⟨ch.toNat, _, _, ⟨_, _, rfl, by decide, rfl, rfl⟩, ?_⟩
      rw [(codes_plain h1).1, codes_iff.mpr ⟨ch, h1, rfl⟩]
      simp only [y_bind, y_skipC, y_pure, y_cache (codes_plain h1).2.1, y_ite, y_err, and_false, false_or, y_hexValue0, y_skipN]
      exact ⟨(), _, _, ⟨_, rfl, rfl⟩, (), _, _, ⟨_, rfl, rfl⟩, (), _, _, ⟨rfl, rfl⟩, v, _, _, ⟨rfl, rfl, ds, _, rfl, h2, h3⟩, by omega, (), _, _, ⟨ds, rfl, h2, rfl⟩, rfl, by simp [h2]; omega, rfl⟩

/-! ### Quoted scalars -/

/-- The loop behind the characters of a quoted scalar. -/
def quotedRest (f : Nat) (start : Mark) (single : Bool) (n : Nat) (p : Text × Bool) : Lex Text := do
  cacheC 1
  if (← peekC 0) == (if single then c! '\'' else c! '"') then pure p.1
  else
    let g ← flowBlanks f { blanks := p.2 }
    flowBody f start single n (joinGap p.1 g)

theorem flowBody_step {f n : Nat} {start : Mark} {single : Bool} {s t : Text} (h : Yields (flowBody f start single (n + 1) s) m cs t m' cs') :
    ¬ DocAt m.column cs ∧ Heads (· ≠ 0) cs ∧ Yields (flowChars start single f s >>= quotedRest f start single n) m cs t m' cs' := by
  unfold flowBody at h
  simp only [y_bind, y_ite, y_err, and_false, false_or, y_cache4, y_cache2, y_peek0] at h
  obtain ⟨_, _, _, ⟨rfl, rfl⟩, b, _, _, h1, hb, c, _, _, ⟨r, rfl, rfl, rfl⟩, hc, _, _, _, ⟨rfl, rfl⟩, p, _, _, h3, h4⟩ := h
  obtain ⟨rfl, rfl, h1⟩ := docIndicator_says h1
  refine ⟨fun hd => hb (h1.mpr hd), ⟨c, r, rfl, by simpa [isZ] using hc⟩, ?_⟩
  rw [y_bind]
  refine ⟨p, _, _, h3, ?_⟩
  unfold quotedRest
  simp only [y_bind, y_ite, y_peek0]
  exact h4

theorem flowBody_steps {f n : Nat} {start : Mark} {single : Bool} {s t : Text} (hz : 0 ∈ cs) (h1 : ¬ DocAt m.column cs) (h2 : Heads (· ≠ 0) cs)
    (h : Yields (flowChars start single f s >>= quotedRest f start single n) m cs t m' cs') : Yields (flowBody f start single (n + 1) s) m cs t m' cs' := by
  unfold flowBody
  simp only [y_bind, y_ite, y_err, and_false, false_or, y_cache4, y_cache2, y_peek0]
  rw [y_bind] at h
  obtain ⟨p, m1, cs1, h3, h4⟩ := h
  obtain ⟨c, r, rfl, hc⟩ := h2
  refine ⟨(), _, _, ⟨rfl, rfl⟩, false, _, _, (y_docIndicator hz).mpr ⟨rfl, rfl, by simp [h1]⟩, by simp, c, _, _, ⟨r, rfl, rfl, rfl⟩, by simpa [isZ] using hc, (), _, _, ⟨rfl, rfl⟩, p, _, _, h3, ?_⟩
  unfold quotedRest at h4
  simp only [y_bind, y_ite, y_peek0] at h4
  exact h4

/-- The quote. -/
abbrev quoteOf (single : Bool) : Nat := if single = true then 0x27 else 0x22

theorem quoteOf_plain (single : Bool) : ¬ Blank (quoteOf single) ∧ ¬ Brk (quoteOf single) ∧ ¬ White (quoteOf single) := by
  cases single <;> simp [quoteOf, Blank, Brk, White]

theorem Spec.QChar.head {single : Bool} {src : List Nat} {v : Nat} (h : QChar single src v) : ∃ c r, src = c :: r ∧ ¬ White c := by
  cases h with
  | self _ _ h _ => exact ⟨v, [], rfl, h⟩
  | quote => exact ⟨_, _, rfl, by simp [White, Blank, Brk]⟩
  | escape => exact ⟨_, _, rfl, by simp [White, Blank, Brk]⟩
  | code => exact ⟨_, _, rfl, by simp [White, Blank, Brk]⟩

theorem white_zero : White 0 := .inr (.inr rfl)

/-- A quoted scalar does not go on at the end of the input. -/
theorem Spec.Quoted.head {single : Bool} {col : Nat} {v rest : List Nat} (h : Quoted single col cs v rest) : Heads (· ≠ 0) cs := by
  cases h with
  | close _ h => exact ⟨_, rest, rfl, by cases single <;> simp⟩
  | char h1 h2 h3 =>
    obtain ⟨c, r, rfl, hc⟩ := h1.head
    exact ⟨c, _, rfl, by rintro rfl; exact hc white_zero⟩
  | white h1 h2 =>
    obtain ⟨c, r, rfl, hc⟩ := h1.head
    exact ⟨c, r, rfl, by rintro rfl; simp [Blank, Brk] at hc⟩
  | joined => exact ⟨_, _, rfl, by simp⟩

theorem not_docAt {col c : Nat} {r : Text} (h1 : c ≠ 0x2D) (h2 : c ≠ 0x2E) : ¬ DocAt col (c :: r) := by
  rintro ⟨_, d, r', _, h | h⟩ <;> (cases h; simp at *)

theorem Spec.Quoted.notDoc {single : Bool} {col : Nat} {v rest : List Nat} (h : Quoted single col cs v rest) : ¬ DocAt col cs := by
  cases h with
  | close r h => cases single <;> exact not_docAt (by simp) (by simp)
  | char h1 h2 h3 => exact h2
  | white h1 h2 =>
    obtain ⟨c, r, rfl, hc⟩ := h1.head
    exact not_docAt (by rintro rfl; simp [Blank, Brk] at hc) (by rintro rfl; simp [Blank, Brk] at hc)
  | joined => exact not_docAt (by simp) (by simp)

theorem docAt_zero {col : Nat} (h : DocAt col cs) : col = 0 := h.1

theorem flowBody_sound {f n : Nat} {start : Mark} {single : Bool} {s t : Text} (h : Yields (flowBody f start single n s) m cs t m' cs') :
    ∃ v rest, Quoted single m.column cs v rest ∧ t = s ++ v ∧ cs' = quoteOf single :: rest := by
  induction n generalizing m cs s with
  | zero => cases h
  | succ n ih =>
    obtain ⟨h1, _, h2⟩ := flowBody_step h
    clear h
    -- behind the last character of a run
    have after : ∀ {m cs s c r}, Yields (quotedRest f start single n (s, false)) m cs t m' cs' → cs = c :: r → (White c ∨ c = quoteOf single ∧ (single = true → Heads (· ≠ 0x27) r)) →
        ∃ v rest, Quoted single m.column cs v rest ∧ t = s ++ v ∧ cs' = quoteOf single :: rest := by
      rintro m cs s c r h rfl hc
      unfold quotedRest at h
      simp only [y_bind, y_ite, y_cache1, y_peek0, y_pure] at h
      obtain ⟨_, _, _, ⟨rfl, rfl⟩, _, _, _, ⟨r', e, rfl, rfl⟩, ⟨hq, rfl, rfl, rfl⟩ | ⟨hq, g, m1, cs1, h3, h4⟩⟩ := h
      · cases e
        have hq : c = quoteOf single := by simpa using hq
        subst hq
        rcases hc with hc | ⟨_, hc⟩
        · exact absurd hc (quoteOf_plain single).2.2
        · exact ⟨[], r, .close _ r hc, by simp, rfl⟩
      · cases e
        obtain ⟨v, rest, k1, rfl, k3⟩ := ih h4
        have hc : White c := by
          rcases hc with hc | ⟨hc, _⟩
          · exact hc
          · exact absurd (by simpa using hc) hq
        rw [flowBlanks_iff (start := start)] at h3
        by_cases hz : c = 0
        · subst hz
          rcases gap_sound (w := []) h3 with ⟨ws, d, r', e, h5, h6, h7, rfl, _⟩ | ⟨ws, cs2, b, cs3, bs, e, h5, h6, _⟩
          · cases ws with
            | nil =>
              cases e
              obtain ⟨_, _, e, he⟩ := k1.head
              cases e; exact absurd rfl he
            | cons x ws => cases e; have := h5 0 (by simp); simp [Blank] at this
          · cases ws with
            | nil =>
              obtain ⟨_, _, e', he⟩ := h6.head
              cases e'; cases e; simp [Brk] at he
            | cons x ws => cases e; have := h5 0 (by simp); simp [Blank] at this
        · obtain ⟨w, h5, h6⟩ := space_sound h3 ⟨c, r, rfl, by rcases hc with h | h | h; exact .inl h; exact .inr h; exact absurd h hz⟩
          rw [tabOk_zero] at h5
          exact ⟨w ++ v, rest, .white h5 k1, by rw [h6]; simp, k3⟩
    suffices inner : ∀ f1 {m cs s}, ¬ DocAt m.column cs → Yields (flowChars start single f1 s >>= quotedRest f start single n) m cs t m' cs' →
        ∃ v rest, Quoted single m.column cs v rest ∧ t = s ++ v ∧ cs' = quoteOf single :: rest from inner f h1 h2
    clear h1 h2
    intro f1 m cs s h1 h2
    induction f1 generalizing m cs s with
    | zero => rw [y_bind] at h2; obtain ⟨_, _, _, h2, _⟩ := h2; cases h2
    | succ f1 ih1 =>
      rw [y_bind] at h2
      obtain ⟨p, m1, cs1, h2, h3⟩ := h2
      unfold flowChars at h2
      simp only [y_bind, y_ite, y_pure, y_peek0, y_peek1, y_readC, y_skipC, y_cache2, y_cache3] at h2
      obtain ⟨c, m, _, ⟨r, rfl, rfl, rfl⟩, h2⟩ := h2
      -- one character
      have one : ∀ {src : List Nat} {x : Nat} {m2 : Mark} {cs2 : Text}, QChar single src x → c :: r = src ++ cs2 → m2 = m.steps src.length →
          Yields (flowChars start single f1 (s ++ [x])) m2 cs2 p m1 cs1 →
          ∃ v rest, Quoted single m.column (c :: r) v rest ∧ t = s ++ v ∧ cs' = quoteOf single :: rest := by
        intro src x m2 cs2 hq e hm hy
        obtain ⟨d, r', rfl, hd⟩ := hq.head
        subst hm
        obtain ⟨v, rest, k1, k2, k3⟩ := ih1 (s := s ++ [x]) (cs := cs2) (m := m.steps (d :: r').length) (fun hd => by have := hd.1; simp at this)
          (y_bind.mpr ⟨p, m1, cs1, hy, h3⟩)
        rw [e]
        exact ⟨x :: v, rest, .char hq (by rw [← e]; exact h1) k1, by rw [k2]; simp, k3⟩
      rcases h2 with ⟨hw, rfl, rfl, rfl⟩ | ⟨hw, h2⟩
      · exact after h3 rfl (.inl (white_iff.mp hw))
      · rw [white_iff] at hw
        rcases h2 with ⟨hs, h2⟩ | ⟨hs, h2⟩
        · rcases h2 with ⟨hq, d, _, _, ⟨_, r', e, _, rfl, rfl⟩, h2⟩ | ⟨hq, h2⟩
          · cases e
            have hq : c = 0x27 := by simpa using hq
            subst hq
            rcases h2 with ⟨hd, _, _, _, ⟨_, e, rfl⟩, _, _, _, ⟨_, e', rfl⟩, _, _, _, ⟨rfl, rfl⟩, h2⟩ | ⟨hd, rfl, rfl, rfl⟩
            · cases e; cases e'
              have hd : d = 0x27 := by simpa using hd
              subst hd
              subst hs
              exact one .quote rfl rfl h2
            · exact after h3 rfl (.inr ⟨by simp [hs], fun _ => ⟨d, r', rfl, by simpa using hd⟩⟩)
          · obtain ⟨_, _, _, ⟨_, e, rfl, rfl⟩, _, _, _, ⟨rfl, rfl⟩, h2⟩ := h2
            cases e
            exact one (.self _ c hw (by rw [if_pos hs]; simpa using hq)) rfl rfl h2
        · have hs : single = false := by simpa using hs
          subst hs
          rcases h2 with ⟨hq, rfl, rfl, rfl⟩ | ⟨hq, h2⟩
          · exact after h3 rfl (.inr ⟨by simpa [quoteOf] using hq, by simp⟩)
          · rcases h2 with ⟨hb, d, _, _, ⟨_, r', e, _, rfl, rfl⟩, h2⟩ | ⟨hb, h2⟩
            · cases e
              have hb : c = 0x5C := by simpa using hb
              subst hb
              rcases h2 with ⟨hd, _, _, _, ⟨rfl, rfl⟩, _, _, _, ⟨_, e, rfl⟩, _, _, _, h2, rfl, rfl, rfl⟩ | ⟨hd, t1, _, _, h2, _, _, _, ⟨rfl, rfl⟩, h4⟩
              · cases e
                rw [y_skipLine] at h2
                rcases h2 with ⟨b, hb, rfl⟩ | ⟨⟨_, _, e, he⟩, _⟩
                · unfold quotedRest at h3
                  simp only [y_bind, y_ite, y_cache1, y_peek0, y_pure] at h3
                  obtain ⟨_, _, _, ⟨rfl, rfl⟩, x, _, _, ⟨r2, rfl, rfl, rfl⟩, ⟨hq, rfl, rfl, rfl⟩ | ⟨hq, g, m1, cs1, h3, h4⟩⟩ := h3
                  · have hq : x = 0x22 := by simpa using hq
                    subst hq
                    exact ⟨[], r2, .joined (bs := []) rfl hb (.done _ _ _ (by simp [Blank]) (by simp [Brk])) (.close _ r2 (by simp)), by simp, rfl⟩
                  · rw [flowBlanks_iff (start := start)] at h3
                    obtain ⟨bs, h5, rfl⟩ := lines_sound rfl h3
                    rw [tabOk_zero] at h5
                    obtain ⟨v, rest, k1, k2, k3⟩ := ih h4
                    exact ⟨bs ++ v, rest, .joined rfl hb h5 k1, by rw [k2]; simp [joinGap], k3⟩
                · cases e
                  exact absurd (brk_iff.mp hd) he
              · rw [y_escape] at h2
                obtain ⟨src, x, k1, k2, rfl, rfl⟩ := h2
                exact one k1 (by rw [k2]; rfl) rfl h4
            · obtain ⟨_, _, _, ⟨_, e, rfl, rfl⟩, _, _, _, ⟨rfl, rfl⟩, h2⟩ := h2
              cases e
              exact one (.self _ c hw (by simp; constructor; simpa using hq; simpa using hb)) rfl rfl h2

/-! The text still ends with NUL behind the parts of a scalar. -/

theorem Spec.BreakAt.zero {b : Nat} (h : BreakAt cs b cs') (hz : 0 ∈ cs) : 0 ∈ cs' := by
  cases h <;> simpa using hz

theorem zero_append {l : Text} (hl : ∀ x ∈ l, x ≠ 0) (hz : 0 ∈ l ++ cs) : 0 ∈ cs := by
  rcases List.mem_append.mp hz with h | h
  · exact absurd rfl (hl 0 h)
  · exact h

theorem blank_ne_zero {c : Nat} (h : Blank c) : c ≠ 0 := by
  rintro rfl; simp [Blank] at h

theorem Spec.Lines.zero {ok : Nat → Nat → Prop} {k k' : Nat} {bs : List Nat} (h : Lines ok k cs bs cs' k') (hz : 0 ∈ cs) : 0 ∈ cs' := by
  induction h with
  | done col c r h1 h2 => exact hz
  | blank h1 _ _ ih => exact ih (zero_append (l := [_]) (by simpa using blank_ne_zero h1) hz)
  | «break» h1 _ ih => exact ih (h1.zero hz)

theorem Spec.Space.zero {ok : Nat → Nat → Prop} {k k' : Nat} {w : Text} {line : Bool} (h : Space ok k cs w cs' k' line) (hz : 0 ∈ cs) : 0 ∈ cs' := by
  cases h with
  | inline ws c r h0 h1 h2 h3 => exact zero_append (fun x hx => blank_ne_zero (h1 x hx)) hz
  | lines ws h1 h2 h3 => exact h3.zero (h2.zero (zero_append (fun x hx => blank_ne_zero (h1 x hx)) hz))

theorem Spec.HexNum.digits {ds : List Nat} {v w : Nat} (h : HexNum v ds w) : ∀ x ∈ ds, x < 0x80 ∧ x ≠ 0 := by
  induction h with
  | nil => simp
  | cons h1 _ ih =>
    refine all_cons (p := fun x => x < 0x80 ∧ x ≠ 0) ?_ ih
    cases h1 <;> omega

theorem Spec.QChar.nonzero {single : Bool} {src : List Nat} {v : Nat} (h : QChar single src v) : ∀ x ∈ src, x ≠ 0 := by
  cases h with
  | self _ _ h _ => simp; rintro rfl; exact h white_zero
  | quote => simp
  | escape c v h => simp; exact (escapes_plain h).2.1
  | code c n v ds h h' h2 =>
    refine all_cons (p := (· ≠ 0)) (by simp) (all_cons (p := (· ≠ 0)) (codes_plain h).2.2.2.1 fun x hx => (h2.digits x hx).2)

theorem Spec.Quoted.zero {single : Bool} {col : Nat} {v rest : List Nat} (h : Quoted single col cs v rest) (hz : 0 ∈ cs) : 0 ∈ rest := by
  induction h with
  | close col r h => exact zero_append (l := [quoteOf single]) (by cases single <;> simp [quoteOf]) hz
  | char h1 _ _ ih => exact ih (zero_append h1.nonzero hz)
  | white h1 _ ih => exact ih (h1.zero hz)
  | joined _ h1 h2 _ ih => exact ih (h2.zero (h1.zero (zero_append (l := [_]) (by simp) hz)))

theorem quoted_complete {f f1 n : Nat} {start : Mark} {single : Bool} {s : Text} {col : Nat} {v rest : List Nat} (h : Quoted single col cs v rest) (hm : m.column = col)
    (hz : 0 ∈ cs) (hf : cs.length < f) (hf1 : cs.length < f1) (hn : cs.length ≤ n) :
    ∃ m', Yields (flowChars start single f1 s >>= quotedRest f start single n) m cs (s ++ v) m' (quoteOf single :: rest) := by
  induction h generalizing m s f1 n with
  | close col r h =>
    cases f1 with
    | zero => omega
    | succ f1 =>
      refine ⟨m, ?_⟩
      rw [y_bind]
      refine ⟨(s, false), m, quoteOf single :: r, ?_, ?_⟩
      · unfold flowChars
        simp only [y_bind, y_ite, y_pure, y_peek0, y_peek1]
        refine ⟨_, _, _, ⟨r, rfl, rfl, rfl⟩, .inr ⟨by rw [white_iff]; exact (quoteOf_plain single).2.2, ?_⟩⟩
        cases single with
        | false => exact .inr ⟨by simp, .inl ⟨by simp, trivial, rfl, rfl⟩⟩
        | true =>
          obtain ⟨d, r', rfl, hd⟩ := h rfl
          exact .inl ⟨rfl, .inl ⟨by simp, d, _, _, ⟨_, r', rfl, by simp, rfl, rfl⟩, .inr ⟨by simpa using hd, trivial, rfl, rfl⟩⟩⟩
      · unfold quotedRest
        simp only [y_bind, y_ite, y_pure, y_peek0, y_cache1]
        exact ⟨(), _, _, ⟨rfl, rfl⟩, _, _, _, ⟨r, rfl, rfl, rfl⟩, .inl ⟨by simp, by simp, rfl, rfl⟩⟩
  | @char col src x cs v rest hq hd _ ih =>
    cases f1 with
    | zero => omega
    | succ f1 =>
      obtain ⟨c, r, rfl, hw⟩ := hq.head
      simp at hf hf1 hn
      obtain ⟨m', h1⟩ := ih (m := m.steps (c :: r).length) (s := s ++ [x]) (f1 := f1) (n := n) (by simp [hm]) (zero_append hq.nonzero hz) (by omega) (by omega) (by omega)
      refine ⟨m', ?_⟩
      rw [y_bind] at h1 ⊢
      obtain ⟨p, m1, cs1, h1, h2⟩ := h1
      refine ⟨p, m1, cs1, ?_, by simpa using h2⟩
      unfold flowChars
      simp only [y_bind, y_ite, y_pure, y_peek0, y_peek1, y_readC, y_skipC, y_cache2]
      refine ⟨c, _, _, ⟨_, rfl, rfl, rfl⟩, .inr ⟨by rw [white_iff]; exact hw, ?_⟩⟩
      have esc : single = false → c = 0x5C → Heads (fun d => ¬ Brk d) r →
          ∃ a s1 cs1_1, (∃ a_1 r_1, c :: r ++ cs = a_1 :: a :: r_1 ∧ a_1 < 128 ∧ s1 = m ∧ cs1_1 = c :: r ++ cs) ∧ ¬ isBreak a = true ∧
            ∃ a s1_1 cs1_2, Yields (scanEscape start s) s1 cs1_1 a s1_1 cs1_2 ∧ ∃ (_ : Unit) (s1 : Mark) (cs1_3 : Text), (s1 = s1_1 ∧ cs1_3 = cs1_2) ∧
              Yields (flowChars start single f1 a) s1 cs1_3 p m1 cs1 := by
        rintro rfl rfl ⟨d, r', rfl, hd'⟩
        refine ⟨d, m, _, ⟨_, _, rfl, by decide, rfl, rfl⟩, by rw [brk_iff]; exact hd', s ++ [x], _, _, ?_, (), _, _, ⟨rfl, rfl⟩, h1⟩
        exact y_escape.mpr ⟨d :: r', x, hq, rfl, rfl, rfl⟩
      cases hq with
      | self _ _ _ hs =>
        cases single with
        | true => exact .inl ⟨rfl, .inr ⟨by simpa using hs, _, _, _, ⟨_, rfl, rfl, rfl⟩, (), _, _, ⟨rfl, rfl⟩, h1⟩⟩
        | false =>
          rw [if_neg (by simp)] at hs
          exact .inr ⟨by simp, .inr ⟨by simpa using hs.1, .inr ⟨by simpa using hs.2, _, _, _, ⟨_, rfl, rfl, rfl⟩, (), _, _, ⟨rfl, rfl⟩, h1⟩⟩⟩
      | quote =>
        exact .inl ⟨rfl, .inl ⟨by simp, _, _, _, ⟨_, _, rfl, by decide, rfl, rfl⟩, .inl ⟨by simp, (), _, _, ⟨_, rfl, rfl⟩, (), _, _, ⟨_, rfl, rfl⟩, (), _, _, ⟨rfl, rfl⟩, h1⟩⟩⟩
      | escape ch v h =>
        obtain ⟨a, m2, cs2, e1, e2, e3⟩ := esc rfl rfl ⟨_, _, rfl, (escapes_plain h).2.2⟩
        exact .inr ⟨by simp, .inr ⟨by simp, .inl ⟨by simp, a, m2, cs2, e1, .inr ⟨e2, e3⟩⟩⟩⟩
      | code ch n v ds h =>
        obtain ⟨a, m2, cs2, e1, e2, e3⟩ := esc rfl rfl ⟨_, _, rfl, (codes_plain h).2.2.2.2⟩
        exact .inr ⟨by simp, .inr ⟨by simp, .inl ⟨by simp, a, m2, cs2, e1, .inr ⟨e2, e3⟩⟩⟩⟩
  | @white col cs w cs' col' line v rest hs hq ih =>
    cases f1 with
    | zero => omega
    | succ f1 =>
      cases n with
      | zero => have := hs.length; omega
      | succ n =>
        have hlen := hs.length
        rw [← tabOk_zero] at hs
        obtain ⟨g, m1, h1, h2, _, h3⟩ := space_complete (start := start) (m := m) (n := f) hs hm hf
        obtain ⟨m', h4⟩ := ih (m := m1) (s := joinGap s g) (f1 := f) (n := n) h2 (hs.zero hz) (by omega) (by omega) (by omega)
        refine ⟨m', ?_⟩
        obtain ⟨c, r, rfl, hc⟩ := hs.head
        have hw : White c := by rcases hc with h | h; exact .inl h; exact .inr (.inl h)
        rw [y_bind]
        refine ⟨(s, false), m, c :: r, ?_, ?_⟩
        · unfold flowChars
          simp only [y_bind, y_ite, y_pure, y_peek0]
          exact ⟨c, _, _, ⟨r, rfl, rfl, rfl⟩, .inl ⟨white_iff.mpr hw, trivial, rfl, rfl⟩⟩
        · unfold quotedRest
          simp only [y_bind, y_ite, y_pure, y_peek0, y_cache1]
          refine ⟨(), _, _, ⟨rfl, rfl⟩, c, _, _, ⟨r, rfl, rfl, rfl⟩, .inr ⟨?_, g, m1, cs', (flowBlanks_iff (start := start)).mpr h1, ?_⟩⟩
          · intro hq
            have hq : c = quoteOf single := by simpa using hq
            exact (quoteOf_plain single).2.2 (hq ▸ hw)
          · have := flowBody_steps (hs.zero hz) (by rw [h2]; exact hq.notDoc) hq.head h4
            rw [h3] at this ⊢
            simpa using this
  | @joined col cs b cs' bs cs'' col' v rest hs hb hl hq ih =>
    subst hs
    cases f1 with
    | zero => omega
    | succ f1 =>
      cases n with
      | zero => simp at hn
      | succ n =>
        have hlen := hl.length
        have hlen' := hb.length
        have hz' : 0 ∈ cs := zero_append (l := [0x5C]) (by simp) hz
        simp at hf hf1 hn
        obtain ⟨d, r, rfl, hd⟩ := hb.head
        have e1 : Yields (flowChars start false (f1 + 1) s) m (0x5C :: d :: r) (s, true) (m.step.newline ((d :: r).length - cs'.length)) cs' := by
          unfold flowChars
          simp only [y_bind, y_ite, y_pure, y_peek0, y_peek1, y_skipC, y_cache3, y_skipLine]
          exact ⟨_, _, _, ⟨_, rfl, rfl, rfl⟩, .inr ⟨by decide, .inr ⟨by simp, .inr ⟨by decide, .inl ⟨by decide, d, _, _, ⟨_, r, rfl, by decide, rfl, rfl⟩,
            .inl ⟨brk_iff.mpr hd, (), _, _, ⟨rfl, rfl⟩, (), _, _, ⟨_, rfl, rfl⟩, (), _, _, .inl ⟨b, hb, rfl⟩, trivial, rfl, rfl⟩⟩⟩⟩⟩⟩
        obtain ⟨x, r2, e, _⟩ := show ∃ x r2, cs' = x :: r2 ∧ True by
          cases hl with
          | done col c r h1 h2 => exact ⟨_, _, rfl, trivial⟩
          | blank h1 h2 h3 => exact ⟨_, _, rfl, trivial⟩
          | «break» h1 h2 => obtain ⟨c, r, rfl, _⟩ := h1.head; exact ⟨_, _, rfl, trivial⟩
        subst e
        by_cases hx : x = 0x22
        · subst hx
          cases hl with
          | blank h1 h2 h3 => simp [Blank] at h1
          | «break» h1 h2 => obtain ⟨c, r, e, h⟩ := h1.head; cases e; simp [Brk] at h
          | done _ _ h1 h2 =>
            generalize hcs : 0x22 :: r2 = cs0 at hq
            cases hq with
            | close r h =>
              cases hcs
              refine ⟨m.step.newline ((d :: r).length - (0x22 :: rest).length), y_bind.mpr ⟨_, _, _, e1, ?_⟩⟩
              unfold quotedRest
              simp only [y_bind, y_ite, y_pure, y_peek0, y_cache1]
              exact ⟨(), _, _, ⟨rfl, rfl⟩, _, _, _, ⟨rest, rfl, rfl, rfl⟩, .inl ⟨by simp, by simp, rfl, rfl⟩⟩
            | char k1 k2 k3 =>
              cases k1 with
              | self _ _ k4 k5 => cases hcs; simp at k5
              | escape => cases hcs
              | code => cases hcs
            | white k1 k2 => obtain ⟨c, r, rfl, hc⟩ := k1.head; cases hcs; simp [Blank, Brk] at hc
            | joined => cases hcs
        · rw [← tabOk_zero] at hl
          obtain ⟨m1, h1, h2⟩ := lines_complete (start := start) (m := m.step.newline ((d :: r).length - (x :: r2).length)) (n := f) (g := { blanks := true }) hl rfl rfl (by simp at *; omega)
          obtain ⟨m', h4⟩ := ih (m := m1) (s := s ++ bs) (f1 := f) (n := n) h2 (hl.zero (hb.zero hz')) (by simp at *; omega) (by simp at *; omega) (by simp at *; omega)
          refine ⟨m', y_bind.mpr ⟨_, _, _, e1, ?_⟩⟩
          unfold quotedRest
          simp only [y_bind, y_ite, y_pure, y_peek0, y_cache1]
          refine ⟨(), _, _, ⟨rfl, rfl⟩, x, _, _, ⟨r2, rfl, rfl, rfl⟩, .inr ⟨by simpa using hx, _, m1, cs'', (flowBlanks_iff (start := start)).mpr h1, ?_⟩⟩
          have := flowBody_steps (hl.zero (hb.zero hz')) (by rw [h2]; exact hq.notDoc) hq.head h4
          simpa [joinGap] using this

theorem scanFlowScalar_sound {f : Nat} {single : Bool} {q : Nat} {t : Token} (h : Yields (scanFlowScalar f single) m (q :: cs) t m' cs') :
    t.start = m ∧ t.stop = m' ∧ ∃ v, Quoted single (m.column + 1) cs v cs' ∧ t.data = .scalar v (if single = true then .single else .double) := by
  unfold scanFlowScalar at h
  simp only [y_bind, y_get, y_skipC, y_pure] at h
  obtain ⟨_, _, _, ⟨rfl, rfl, rfl⟩, _, _, _, ⟨_, e, rfl⟩, s, _, _, h, _, _, _, ⟨_, e', rfl⟩, _, _, _, ⟨rfl, rfl, rfl⟩, h', rfl, rfl⟩ := h
  cases e
  obtain ⟨v, rest, h1, rfl, h2⟩ := flowBody_sound h
  rw [h2] at e'
  cases e'
  cases h'
  exact ⟨rfl, rfl, _, h1, by simp⟩

/-- A quoted scalar: the scanner reads the text behind the opening quote according to the rules. -/
theorem scanFlowScalar_iff {f : Nat} {single : Bool} {q : Nat} {t : TokData} (hz : 0 ∈ cs) (hf : cs.length < f) :
    (∃ a b m', Yields (scanFlowScalar f single) m (q :: cs) { data := t, start := a, stop := b } m' cs') ↔
    ∃ v, Quoted single (m.column + 1) cs v cs' ∧ t = .scalar v (if single = true then .single else .double) := by
  constructor
  · rintro ⟨a, b, m', h⟩
    exact (scanFlowScalar_sound h).2.2
  · unfold scanFlowScalar
    simp only [y_bind, y_get, y_skipC, y_pure]
    rintro ⟨v, h, rfl⟩
    cases f with
    | zero => omega
    | succ n =>
      obtain ⟨m', h1⟩ := quoted_complete (f := n + 1) (f1 := n + 1) (n := n) (start := m) (s := []) (m := m.step) h rfl hz hf hf (by omega)
      have h2 := flowBody_steps hz (by exact h.notDoc) h.head h1
      exact ⟨m, m'.step, m'.step, _, _, _, ⟨rfl, rfl, rfl⟩, (), _, _, ⟨_, rfl, rfl⟩, _, _, _, h2, (), _, _, ⟨_, rfl, rfl⟩, _, _, _, ⟨rfl, rfl, rfl⟩, by simp, rfl, rfl⟩

end LibYaml
