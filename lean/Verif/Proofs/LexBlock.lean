import Verif.Proofs.Tracks
import Verif.Proofs.LexQuoted

/-!
# Block scalars against the lexical rules
-/

namespace LibYaml

open Spec

variable {m m' : Mark} {cs cs' : Text} {u : Unit}

/-! ### The end of a line -/

theorem not_breakz_iff {l : Text} : (∀ c ∈ l, (!isBreakz c) = true) ↔ ∀ c ∈ l, ¬ Brk c ∧ c ≠ 0 := by
  constructor
  · intro h c hc
    have := h c hc
    simp [← Bool.not_eq_true, breakz_iff] at this
    exact this
  · intro h c hc
    simp [← Bool.not_eq_true, breakz_iff]
    exact h c hc

theorem breakz_heads : Heads (fun c => (!isBreakz c) = false) cs ↔ Heads (fun c => Brk c ∨ c = 0) cs := by
  constructor
  · rintro ⟨c, r, rfl, h⟩; exact ⟨c, r, rfl, breakz_iff.mp (by simpa using h)⟩
  · rintro ⟨c, r, rfl, h⟩; exact ⟨c, r, rfl, by simpa using breakz_iff.mpr h⟩

theorem y_skipComment {n : Nat} (hn : cs.length < n) : Yields (skipComment n) m cs u m' cs' ↔
    (∃ com, cs = com ++ cs' ∧ Heads (· = 0x23) com ∧ (∀ x ∈ com, ¬ Brk x ∧ x ≠ 0) ∧ Heads (fun c => Brk c ∨ c = 0) cs' ∧ m' = m.steps com.length) ∨
    (Heads (· ≠ 0x23) cs ∧ m' = m ∧ cs' = cs) := by
  unfold skipComment
  simp only [y_bind, y_peek0, y_ite, y_pure]
  constructor
  · rintro ⟨c, _, _, ⟨r, rfl, rfl, rfl⟩, ⟨hc, h⟩ | ⟨hc, _, rfl, rfl⟩⟩
    · rw [y_skipWhile hn] at h
      obtain ⟨l, e, h1, h2, rfl⟩ := h
      have hc : c = 0x23 := by simpa using hc
      subst hc
      rw [breakz_heads] at h2
      rw [not_breakz_iff] at h1
      refine .inl ⟨l, e, ?_, h1, h2, rfl⟩
      cases l with
      | nil => obtain ⟨_, _, rfl, h⟩ := h2; cases e; simp [Brk] at h
      | cons x l => cases e; exact ⟨_, _, rfl, rfl⟩
    · exact .inr ⟨⟨c, r, rfl, by simpa using hc⟩, rfl, rfl⟩
  · rintro (⟨com, rfl, ⟨c, r, rfl, rfl⟩, h1, h2, rfl⟩ | ⟨⟨c, r, rfl, hc⟩, rfl, rfl⟩)
    · refine ⟨_, _, _, ⟨_, rfl, rfl, rfl⟩, .inl ⟨by simp, ?_⟩⟩
      rw [y_skipWhile hn]
      exact ⟨_, rfl, not_breakz_iff.mpr h1, breakz_heads.mpr h2, rfl⟩
    · exact ⟨c, _, _, ⟨r, rfl, rfl, rfl⟩, .inr ⟨by simpa using hc, trivial, rfl, rfl⟩⟩

theorem blanks_iff {l : Text} : (∀ c ∈ l, isBlank c = true) ↔ ∀ c ∈ l, Blank c :=
  ⟨fun h c hc => blank_iff.mp (h c hc), fun h c hc => blank_iff.mpr (h c hc)⟩

theorem blank_heads : Heads (fun c => isBlank c = false) cs ↔ Heads (fun c => ¬ Blank c) cs := by
  constructor
  · rintro ⟨c, r, rfl, h⟩; exact ⟨c, r, rfl, by show ¬ _; rw [← blank_iff]; simp [h]⟩
  · rintro ⟨c, r, rfl, h⟩; exact ⟨c, r, rfl, by rw [← blank_iff] at h; simpa using h⟩

theorem y_blanks {n : Nat} (hn : cs.length < n) : Yields (skipWhile isBlank n) m cs u m' cs' ↔
    ∃ l, cs = l ++ cs' ∧ (∀ c ∈ l, Blank c) ∧ Heads (fun c => ¬ Blank c) cs' ∧ m' = m.steps l.length := by
  rw [y_skipWhile hn]
  simp only [blanks_iff, blank_heads]

theorem finishLine_sound {f : Nat} {ctx : String} {start : Mark} (hf : cs.length < f) (h : Yields (finishLine f ctx start) m cs u m' cs') :
    ∃ eof, LineEnd cs cs' eof ∧ (eof = false → m'.column = 0) := by
  unfold finishLine at h
  simp only [y_bind, y_cache1, y_cache2, y_peek0, y_ite, y_pure, y_err, and_false, or_false] at h
  obtain ⟨_, _, _, ⟨rfl, rfl⟩, _, _, cs1, h, _, _, cs2, h', c, _, _, ⟨r, hcr, rfl, rfl⟩, hz, h2⟩ := h
  rw [y_blanks hf] at h
  obtain ⟨ws, rfl, h1, h3, rfl⟩ := h
  rw [y_skipComment (by simp at hf; omega)] at h'
  have key : ∃ com, cs1 = com ++ c :: r ∧ (com = [] ∨ Heads (· = 0x23) com) ∧ ∀ x ∈ com, ¬ Brk x ∧ x ≠ 0 := by
    rcases h' with ⟨com, e, k1, k2, _⟩ | ⟨_, _, rfl⟩
    · exact ⟨com, hcr ▸ e, .inr k1, k2⟩
    · exact ⟨[], hcr, .inl rfl, by simp⟩
  obtain ⟨com, rfl, k1, k2⟩ := key
  subst hcr
  rcases h2 with ⟨hb, _, _, _, ⟨rfl, rfl⟩, h2⟩ | ⟨hb, _, rfl, rfl⟩
  · rw [y_skipLine] at h2
    rcases h2 with ⟨b, hb', rfl⟩ | ⟨⟨_, _, e, he⟩, _⟩
    · exact ⟨false, .break ws com h1 k1 k2 hb', fun _ => rfl⟩
    · cases e; exact absurd (brk_iff.mp hb) he
  · rw [breakz_iff] at hz
    rw [brk_iff] at hb
    obtain rfl : c = 0 := by rcases hz with h | h; exact absurd h hb; exact h
    exact ⟨true, .eof ws com r h1 k1 k2, by simp⟩

theorem finishLine_complete {f : Nat} {ctx : String} {start : Mark} {eof : Bool} (hf : cs.length < f) (h : LineEnd cs cs' eof) :
    ∃ m', Yields (finishLine f ctx start) m cs () m' cs' ∧ (eof = false → m'.column = 0) ∧ (eof = true → m.column ≤ m'.column) := by
  have key : ∀ (ws com : Text) (c : Nat) (r : Text), cs = ws ++ (com ++ c :: r) → (∀ x ∈ ws, Blank x) → (com = [] ∨ Heads (· = 0x23) com) → (∀ x ∈ com, ¬ Brk x ∧ x ≠ 0) →
      (Brk c ∨ c = 0) → ∀ m1, (if isBreak c = true then Yields (cacheC 2 >>= fun _ => skipLine) (m.steps (ws.length + com.length)) (c :: r) () m1 cs' else m1 = m.steps (ws.length + com.length) ∧ cs' = c :: r) →
      Yields (finishLine f ctx start) m cs () m1 cs' := by
    rintro ws com c r rfl h1 h2 h3 h4 m1 h5
    unfold finishLine
    simp only [y_bind, y_cache1, y_peek0, y_ite, y_pure, y_err, and_false, or_false]
    simp at hf
    refine ⟨(), _, _, ⟨rfl, rfl⟩, (), m.steps ws.length, com ++ c :: r, ?_, (), m.steps (ws.length + com.length), c :: r, ?_, c, _, _, ⟨r, rfl, rfl, rfl⟩, breakz_iff.mpr h4, ?_⟩
    · rw [y_blanks (by simp; omega)]
      refine ⟨ws, rfl, h1, ?_, rfl⟩
      rcases h2 with rfl | ⟨_, _, rfl, rfl⟩
      · exact ⟨c, r, rfl, by rcases h4 with h | rfl; exact not_blank_brk h; simp [Blank]⟩
      · exact ⟨_, _, rfl, by simp [Blank]⟩
    · rw [y_skipComment (by simp; omega)]
      rcases h2 with rfl | h2
      · exact .inr ⟨⟨c, r, rfl, by rintro rfl; simp [Brk] at h4⟩, rfl, rfl⟩
      · exact .inl ⟨com, rfl, h2, h3, ⟨c, r, rfl, h4⟩, by simp; omega⟩
    · by_cases hb : isBreak c = true
      · rw [if_pos hb, y_bind] at h5
        exact .inl ⟨hb, h5⟩
      · rw [if_neg hb] at h5
        exact .inr ⟨hb, trivial, h5⟩
  cases h with
  | «break» ws com h1 h2 h3 hb =>
    obtain ⟨c, r, rfl, hc⟩ := hb.head
    refine ⟨(m.steps (ws.length + com.length)).newline ((c :: r).length - cs'.length), key ws com c r rfl h1 h2 h3 (.inl hc) _ ?_, fun _ => rfl, by simp⟩
    rw [if_pos (brk_iff.mpr hc)]
    simp only [y_bind, y_cache2, y_skipLine]
    exact ⟨(), _, _, ⟨rfl, rfl⟩, .inl ⟨_, hb, rfl⟩⟩
  | eof ws com r h1 h2 h3 =>
    exact ⟨m.steps (ws.length + com.length), key ws com 0 r rfl h1 h2 h3 (.inr rfl) _ (by rw [if_neg (by decide)]; exact ⟨rfl, rfl⟩), by simp, by simp⟩

theorem Spec.LineEnd.length {eof : Bool} (h : LineEnd cs cs' eof) : cs'.length ≤ cs.length := by
  cases h with
  | «break» ws com h1 h2 h3 hb => have := hb.length; simp; omega
  | eof => simp; omega

theorem Spec.LineEnd.zero {eof : Bool} (h : LineEnd cs cs' eof) (hz : 0 ∈ cs) : 0 ∈ cs' := by
  cases h with
  | «break» ws com h1 h2 h3 hb => exact hb.zero (zero_append (fun x hx => (h3 x hx).2) (zero_append (fun x hx => blank_ne_zero (h1 x hx)) hz))
  | eof => simp

/-! ### Indentation -/

theorem skipIndent_sound {indent : Int} {n : Nat} (h : Yields (skipIndent indent n) m cs u m' cs') :
    ∃ k, cs = List.replicate k 0x20 ++ cs' ∧ m' = m.steps k ∧ (k = 0 ∨ indent = 0 ∨ (m.column + k : Int) ≤ indent) ∧
      ((indent = 0 ∨ (m.column + k : Int) < indent) → Heads (· ≠ 0x20) cs') := by
  induction n generalizing m cs with
  | zero => cases h
  | succ n ih =>
    unfold skipIndent at h
    simp only [y_bind, y_get, y_ite, y_peek0, y_skipC, y_cache1, y_pure] at h
    obtain ⟨_, m, _, ⟨rfl, rfl, rfl⟩, ⟨hi, c, _, _, ⟨r, rfl, rfl, rfl⟩, h⟩ | ⟨hi, _, rfl, rfl⟩⟩ := h
    · rcases h with ⟨hs, _, _, _, ⟨_, e, rfl⟩, _, _, _, ⟨rfl, rfl⟩, h⟩ | ⟨hs, _, rfl, rfl⟩
      · cases e
        obtain ⟨k, rfl, rfl, h1, h2⟩ := ih h
        have hs : c = 0x20 := by simpa [isSpace] using hs
        subst hs
        refine ⟨k + 1, by simp [List.replicate_succ], by simp; omega, ?_, ?_⟩
        · simp at h1; omega
        · intro h3; apply h2; simp; omega
      · refine ⟨0, rfl, rfl, .inl rfl, fun _ => ⟨c, r, rfl, by simpa [isSpace] using hs⟩⟩
    · exact ⟨0, rfl, rfl, .inl rfl, fun h => absurd (by simpa using h) hi⟩

theorem skipIndent_complete {indent : Int} {n k : Nat} (hn : k < n) (h1 : k = 0 ∨ indent = 0 ∨ (m.column + k : Int) ≤ indent)
    (h2 : (indent = 0 ∨ (m.column + k : Int) < indent) → Heads (· ≠ 0x20) cs) : Yields (skipIndent indent n) m (List.replicate k 0x20 ++ cs) u (m.steps k) cs := by
  induction k generalizing m n with
  | zero =>
    cases n with
    | zero => omega
    | succ n =>
      unfold skipIndent
      simp only [y_bind, y_get, y_ite, y_peek0, y_pure]
      refine ⟨_, _, _, ⟨rfl, rfl, rfl⟩, ?_⟩
      by_cases hi : indent = 0 ∨ (m.column : Int) < indent
      · obtain ⟨c, r, rfl, hc⟩ := h2 (by simpa using hi)
        exact .inl ⟨hi, c, _, _, ⟨r, rfl, rfl, rfl⟩, .inr ⟨by simpa [isSpace] using hc, trivial, rfl, rfl⟩⟩
      · exact .inr ⟨hi, trivial, rfl, rfl⟩
  | succ k ih =>
    cases n with
    | zero => omega
    | succ n =>
      unfold skipIndent
      simp only [y_bind, y_get, y_ite, y_peek0, y_skipC, y_cache1]
      refine ⟨_, _, _, ⟨rfl, rfl, rfl⟩, .inl ⟨by omega, 0x20, _, _, ⟨_, rfl, rfl, rfl⟩, .inl ⟨by decide, (), _, _, ⟨_, rfl, rfl⟩, (), _, _, ⟨rfl, rfl⟩, ?_⟩⟩⟩
      have := ih (m := m.step) (n := n) (by omega) (by simp; omega) (fun h => h2 (by simp at h; omega))
      rw [show (m.step.steps k) = m.steps (k + 1) by simp; omega] at this
      exact this

/-- The empty lines. -/
theorem empties_sound {f n N : Nat} {start : Mark} {mx mx' : Nat} {brs brs' : Text} {stop stop' : Mark} (hm : m.column = 0)
    (h : Yields (blockBreaksLoop f start (N : Int) n mx brs stop) m cs (mx', brs', stop') m' cs') :
    ∃ bs mx1, Empties N cs bs mx1 cs' m'.column ∧ brs' = brs ++ bs ∧ mx' = max mx mx1 ∧ m'.index + cs'.length = m.index + cs.length ∧
      (stop.index = m.index → stop'.index + m'.column = m'.index) := by
  induction n generalizing m cs mx brs stop with
  | zero => cases h
  | succ n ih =>
    unfold blockBreaksLoop at h
    simp only [y_bind, y_cache1, y_cache2, y_get, y_ite, y_peek0, y_pure, y_err, and_false, false_or] at h
    obtain ⟨_, _, _, ⟨rfl, rfl⟩, _, _, _, h1, _, _, _, ⟨rfl, rfl, rfl⟩, c, _, _, ⟨r, rfl, rfl, rfl⟩, ht, h2⟩ := h
    obtain ⟨k, rfl, rfl, k1, k2⟩ := skipIndent_sound h1
    have hmax : ∀ a b : Nat, (if b > a then b else a) = max a b := by intro a b; split <;> omega
    simp only [hmax, hm, Nat.zero_add] at h2
    simp [hm] at ht k1 k2
    rcases h2 with ⟨hb, _, _, _, ⟨rfl, rfl⟩, t, _, _, h2, _, _, _, ⟨rfl, rfl, rfl⟩, h3⟩ | ⟨hb, h2, rfl, rfl⟩
    · rw [y_readLine] at h2
      rcases h2 with ⟨b, hb', rfl, rfl⟩ | ⟨⟨_, _, e, he⟩, _⟩
      · obtain ⟨bs, mx1, e1, e2, e3, e4, e5⟩ := ih rfl h3
        have := hb'.length
        simp at e4 this
        exact ⟨b :: bs, max k mx1, .line k hb' (by omega) e1, by simp [e2], by omega, by simp; omega, fun _ => e5 rfl⟩
      · cases e; exact absurd (brk_iff.mp hb) he
    · cases h2
      refine ⟨[], k, ?_, by simp, rfl, by simp; omega, fun h => by simp [hm]; omega⟩
      rw [show (Mark.steps _ k).column = k by simp [hm]]
      refine .last k c r (by rw [← brk_iff]; simp [hb]) ?_ (by omega)
      intro hk hbl
      have hk' := k2 (by omega)
      obtain ⟨_, _, e, he⟩ := hk'
      cases e
      rcases hbl with h | h
      · exact he h
      · have := ht (by omega); simp [isTab, h] at this

theorem Spec.Empties.stops {N : Nat} {bs : List Nat} {mx col : Nat} (h : Empties N cs bs mx cs' col) : Heads (fun c => ¬ Brk c) cs' := by
  induction h with
  | last k c r h1 h2 h3 => exact ⟨c, r, rfl, h1⟩
  | line _ _ _ _ ih => exact ih

theorem Spec.Empties.length {N : Nat} {bs : List Nat} {mx col : Nat} (h : Empties N cs bs mx cs' col) : cs'.length ≤ cs.length := by
  induction h with
  | last k c r h1 h2 h3 => simp
  | line k hb _ _ ih => have := hb.length; simp; omega

theorem empties_complete {f n N : Nat} {start : Mark} {mx mx1 col : Nat} {brs bs : Text} {stop : Mark} (h : Empties N cs bs mx1 cs' col) (hm : m.column = 0)
    (hf : cs.length < f) (hn : cs.length < n) :
    ∃ stop' m', Yields (blockBreaksLoop f start (N : Int) n mx brs stop) m cs (max mx mx1, brs ++ bs, stop') m' cs' ∧ m'.column = col := by
  have hmax : ∀ a b : Nat, (if b > a then b else a) = max a b := by intro a b; split <;> omega
  induction h generalizing m n mx brs stop with
  | last k c r h1 h2 h3 =>
    cases n with
    | zero => omega
    | succ n =>
      refine ⟨stop, m.steps k, ?_, by simp [hm]⟩
      unfold blockBreaksLoop
      simp only [y_bind, y_cache1, y_cache2, y_get, y_ite, y_peek0, y_pure, y_err, and_false, false_or]
      simp at hf
      refine ⟨(), _, _, ⟨rfl, rfl⟩, (), _, _, skipIndent_complete (k := k) (cs := c :: r) (by omega) (by omega) ?_, _, _, _, ⟨rfl, rfl, rfl⟩, c, _, _, ⟨r, rfl, rfl, rfl⟩, ?_, .inr ⟨?_, ?_, rfl, rfl⟩⟩
      · intro hk
        exact ⟨c, r, rfl, by rintro rfl; exact h2 (by omega) (.inl rfl)⟩
      · rintro ⟨hk, ht⟩
        exact h2 (by simp [hm] at hk; omega) (.inr (by simpa [isTab] using ht))
      · rw [brk_iff]; exact h1
      · simp [hm, hmax]
  | @line k cs b cs' bs mx' rest col hb hk _ ih =>
    cases n with
    | zero => omega
    | succ n =>
      have hlen := hb.length
      simp at hf hn
      obtain ⟨c, r, rfl, hc⟩ := hb.head
      obtain ⟨stop', m', h1, h2⟩ := ih (m := (m.steps k).newline ((c :: r).length - cs'.length)) (n := n) (mx := max mx k) (brs := brs ++ [b])
        (stop := (m.steps k).newline ((c :: r).length - cs'.length)) rfl (by omega) (by omega)
      refine ⟨stop', m', ?_, h2⟩
      unfold blockBreaksLoop
      simp only [y_bind, y_cache1, y_cache2, y_get, y_ite, y_peek0, y_pure, y_err, and_false, false_or]
      refine ⟨(), _, _, ⟨rfl, rfl⟩, (), _, _, skipIndent_complete (k := k) (cs := c :: r) (by omega) (by omega) ?_, _, _, _, ⟨rfl, rfl, rfl⟩, c, _, _, ⟨r, rfl, rfl, rfl⟩, ?_,
        .inl ⟨brk_iff.mpr hc, (), _, _, ⟨rfl, rfl⟩, _, _, _, y_readLine.mpr (.inl ⟨b, hb, rfl, rfl⟩), _, _, _, ⟨rfl, rfl, rfl⟩, ?_⟩⟩
      · intro _
        exact ⟨c, r, rfl, by rintro rfl; simp [Brk] at hc⟩
      · rintro ⟨_, ht⟩
        have : c = 9 := by simpa [isTab] using ht
        subst this; simp [Brk] at hc
      · rw [hmax]
        simp [hm, Nat.max_assoc] at h1 ⊢
        exact h1

/-! ### The lines -/

/-- Does the text start with a blank? -/
def startsBlank : Text → Bool
  | [] => false
  | c :: _ => isBlank c

theorem spaced_iff {l : BlockLine} : l.spaced ↔ startsBlank l.text = true := by
  unfold BlockLine.spaced Heads startsBlank
  cases l.text with
  | nil => simp
  | cons c r => simp [blank_iff]

/-- What the loop does with a line. -/
def addLine (literal : Bool) (st : Bool × Text × Text × Text) (l : BlockLine) : Bool × Text × Text × Text :=
  (startsBlank l.text, blockJoin literal st.1 (startsBlank l.text) st.2.1 st.2.2.1 st.2.2.2 ++ l.text, l.breaks.take 1, l.breaks.drop 1)

theorem blockBreaks_at {f N : Nat} {start : Mark} {parent : Int} (hN : N ≠ 0) {i : Int} {brs brs' : Text} {stop : Mark}
    (h : Yields (blockBreaks f start parent (N : Int) brs) m cs (i, brs', stop) m' cs') :
    i = (N : Int) ∧ ∃ mx, Yields (blockBreaksLoop f start (N : Int) f 0 brs m) m cs (mx, brs', stop) m' cs' := by
  unfold blockBreaks at h
  simp only [y_bind, y_get, y_pure] at h
  obtain ⟨_, _, _, ⟨rfl, rfl, rfl⟩, ⟨mx, b, st⟩, _, _, h, h', rfl, rfl⟩ := h
  rw [if_neg (by omega)] at h'
  cases h'
  exact ⟨rfl, mx, h⟩

theorem blockBreaks_of {f N : Nat} {start : Mark} {parent : Int} {mx : Nat} {brs brs' : Text} {stop : Mark}
    (h : Yields (blockBreaksLoop f start (N : Int) f 0 brs m) m cs (mx, brs', stop) m' cs') :
    Yields (blockBreaks f start parent (N : Int) brs) m cs (if (N : Int) = 0 then foundIndent parent mx else (N : Int), brs', stop) m' cs' := by
  unfold blockBreaks
  simp only [y_bind, y_get, y_pure]
  exact ⟨_, _, _, ⟨rfl, rfl, rfl⟩, _, _, _, h, rfl, rfl, rfl⟩

/-- At the end of the input there are no line breaks. -/
theorem blockBreaks_eof {f n : Nat} {start : Mark} {indent : Int} {mx mx' : Nat} {brs brs' r : Text} {stop stop' : Mark} :
    Yields (blockBreaksLoop (f + 1) start indent (n + 1) mx brs stop) m (0 :: r) (mx', brs', stop') m' cs' ↔
    mx' = max mx m.column ∧ brs' = brs ∧ stop' = stop ∧ m' = m ∧ cs' = 0 :: r := by
  unfold blockBreaksLoop
  have hs : ∀ {u m1 cs1}, Yields (skipIndent indent (f + 1)) m (0 :: r) u m1 cs1 ↔ m1 = m ∧ cs1 = 0 :: r := by
    intro u m1 cs1
    unfold skipIndent
    simp only [y_bind, y_get, y_ite, y_peek0, y_pure]
    constructor
    · rintro ⟨_, _, _, ⟨rfl, rfl, rfl⟩, ⟨_, _, _, _, ⟨r, e, rfl, rfl⟩, ⟨h, _⟩ | ⟨_, _, rfl, rfl⟩⟩ | ⟨_, _, rfl, rfl⟩⟩
      · cases e; simp [isSpace] at h
      · exact ⟨rfl, rfl⟩
      · exact ⟨rfl, rfl⟩
    · rintro ⟨rfl, rfl⟩
      refine ⟨_, _, _, ⟨rfl, rfl, rfl⟩, ?_⟩
      by_cases hi : indent = 0 ∨ (m1.column : Int) < indent
      · exact .inl ⟨hi, 0, _, _, ⟨r, rfl, rfl, rfl⟩, .inr ⟨by decide, trivial, rfl, rfl⟩⟩
      · exact .inr ⟨hi, trivial, rfl, rfl⟩
  have hmax : ∀ a b : Nat, (if b > a then b else a) = max a b := by intro a b; split <;> omega
  simp only [y_bind, y_cache1, y_get, y_ite, y_peek0, y_pure, y_err, and_false, false_or, hmax]
  constructor
  · rintro ⟨_, _, _, ⟨rfl, rfl⟩, _, _, _, h1, _, _, _, ⟨rfl, rfl, rfl⟩, c, _, _, ⟨r', e, rfl, rfl⟩, _, h⟩
    obtain ⟨rfl, rfl⟩ := hs.mp h1
    cases e
    rcases h with ⟨h, _⟩ | ⟨_, h, rfl, rfl⟩
    · simp [isBreak] at h
    · cases h; exact ⟨rfl, rfl, rfl, rfl, rfl⟩
  · rintro ⟨rfl, rfl, rfl, rfl, rfl⟩
    exact ⟨(), _, _, ⟨rfl, rfl⟩, (), _, _, hs.mpr ⟨rfl, rfl⟩, _, _, _, ⟨rfl, rfl, rfl⟩, 0, _, _, ⟨r, rfl, rfl, rfl⟩, by simp [isTab], .inr ⟨by decide, by trivial, rfl, rfl⟩⟩

theorem Spec.BlockText.at_eof {k col : Nat} {ls : List BlockLine} {r mid rest : Text} (h : BlockText k col (0 :: r) ls mid rest) : ls = [] ∧ rest = 0 :: r := by
  generalize e : 0 :: r = cs at h
  cases h with
  | over => exact ⟨rfl, rfl⟩
  | last text r' h1 h2 =>
    cases text with
    | nil => exact absurd rfl h1
    | cons x t => cases e; exact absurd rfl (h2 0 (by simp)).2
  | line text h1 h2 =>
    cases text with
    | nil => exact absurd rfl h1
    | cons x t => cases e; exact absurd rfl (h2 0 (by simp)).2

theorem blockLines_eof {f n : Nat} {start : Mark} {parent k : Int} {literal lb : Bool} {s lead trail r : Text} {stop : Mark} {p : Text × Text × Text × Mark}
    (h : Yields (blockLines f start parent literal k n lb s lead trail stop) m (0 :: r) p m' cs') : p = (s, lead, trail, stop) ∧ m' = m ∧ cs' = 0 :: r := by
  cases n with
  | zero => cases h
  | succ n =>
    unfold blockLines at h
    simp only [y_bind, y_get, y_ite, y_peek0, y_pure] at h
    obtain ⟨_, m, _, ⟨rfl, rfl, rfl⟩, ⟨_, c, m, _, ⟨r, e, rfl, rfl⟩, h⟩ | ⟨_, rfl, rfl, rfl⟩⟩ := h
    · cases e
      rcases h with ⟨_, rfl, rfl, rfl⟩ | ⟨hz, _⟩
      · exact ⟨rfl, rfl, rfl⟩
      · exact absurd (by decide) hz
    · exact ⟨rfl, rfl, rfl⟩

theorem blockLines_sound {f n k : Nat} {start : Mark} {parent : Int} {literal lb : Bool} {s s' lead lead' trail trail' : Text} {stop stop' : Mark} (hk : k ≠ 0)
    (hf : cs.length < f) (hc : Heads (fun c => ¬ Brk c) cs)
    (h : Yields (blockLines f start parent literal (k : Int) n lb s lead trail stop) m cs (s', lead', trail', stop') m' cs') :
    ∃ ls b mid, BlockText k m.column cs ls mid cs' ∧ ls.foldl (addLine literal) (lb, s, lead, trail) = (b, s', lead', trail') ∧
      m'.index + cs'.length = m.index + cs.length ∧ (stop.index + m.column = m.index → stop'.index + mid.length = m.index + cs.length) := by
  induction n generalizing m cs lb s lead trail stop with
  | zero => cases h
  | succ n ih =>
    unfold blockLines at h
    simp only [y_bind, y_get, y_ite, y_peek0, y_pure, y_cache2] at h
    obtain ⟨_, m, _, ⟨rfl, rfl, rfl⟩, ⟨hcol, c, m, _, ⟨r, rfl, rfl, rfl⟩, h⟩ | ⟨hcol, h, rfl, rfl⟩⟩ := h
    · obtain ⟨_, _, e, hc⟩ := hc
      cases e
      rcases h with ⟨hz, h, rfl, rfl⟩ | ⟨hz, s1, _, _, h1, _, m1, cs1, ⟨rfl, rfl⟩, l1, m2, cs2, h2, ⟨i, t1, st1⟩, m3, cs3, h3, h4⟩
      · cases h
        exact ⟨[], lb, _, .over _ _ ⟨c, r, rfl, .inr (by simpa [isZ] using hz)⟩, rfl, rfl, fun h => by simp; omega⟩
      · have hz : c ≠ 0 := by simpa [isZ] using hz
        rw [y_readWhile hf] at h1
        obtain ⟨text, e1, k1, k2, rfl, rfl⟩ := h1
        rw [not_breakz_iff] at k1
        rw [breakz_heads] at k2
        have hcol' : m.column = k := by exact_mod_cast hcol
        have htext : ∃ t, text = c :: t := by
          cases text with
          | nil => obtain ⟨_, _, rfl, h⟩ := k2; cases e1; rcases h with h | h; exact absurd h hc; exact absurd h hz
          | cons x t => cases e1; exact ⟨t, rfl⟩
        obtain ⟨t, rfl⟩ := htext
        rw [hcol', e1]
        obtain ⟨rfl, mx, h3⟩ := blockBreaks_at hk h3
        rw [y_readLine] at h2
        have hlen : cs1.length < f := by rw [e1] at hf; simp at hf; omega
        rcases h2 with ⟨b, hb, rfl, rfl⟩ | ⟨hnb, rfl, rfl, rfl⟩
        · have hl := hb.length
          obtain ⟨bs, mx1, q1, q2, _, q5, q6⟩ := empties_sound rfl h3
          have := q1.length
          simp only [List.nil_append] at q2 h4
          subst q2
          obtain ⟨ls, b', mid, q3, q4, q7, q8⟩ := ih (by omega) q1.stops h4
          simp at q5 q6
          refine ⟨⟨c :: t, b :: t1⟩ :: ls, b', mid, .line _ (by simp) k1 hb q1 q3, q4, ?_, fun _ => ?_⟩
          · simp; omega
          · have := q8 q6
            simp; omega
        · obtain ⟨c', r', rfl, hc'⟩ := k2
          obtain ⟨_, _, e, hnb⟩ := hnb
          cases e
          obtain rfl : c' = 0 := by rcases hc' with h | h; exact absurd h hnb; exact h
          cases f with
          | zero => omega
          | succ f =>
            rw [blockBreaks_eof] at h3
            obtain ⟨rfl, rfl, rfl, rfl, rfl⟩ := h3
            obtain ⟨h5, rfl, rfl⟩ := blockLines_eof h4
            cases h5
            exact ⟨[⟨c :: t, []⟩], _, _, .last _ _ (by simp) k1, rfl, by simp; omega, fun _ => by simp; omega⟩
    · cases h
      obtain ⟨c, r, rfl, _⟩ := hc
      exact ⟨[], lb, _, .over _ _ ⟨c, r, rfl, .inl (by exact_mod_cast hcol)⟩, rfl, rfl, fun h => by simp; omega⟩

theorem blockLines_complete {f n k col : Nat} {start : Mark} {parent : Int} {literal lb : Bool} {s lead trail : Text} {stop : Mark} {ls : List BlockLine} {mid : Text} (hk : k ≠ 0)
    (h : BlockText k col cs ls mid cs') (hm : m.column = col) (hf : cs.length < f) (hn : cs.length < n) :
    ∃ st b stop' m', ls.foldl (addLine literal) (lb, s, lead, trail) = (b, st) ∧
      Yields (blockLines f start parent literal (k : Int) n lb s lead trail stop) m cs (st.1, st.2.1, st.2.2, stop') m' cs' := by
  induction h generalizing m n lb s lead trail stop with
  | over col cs h =>
    cases n with
    | zero => omega
    | succ n =>
      obtain ⟨c, r, rfl, hc⟩ := h
      refine ⟨(s, lead, trail), lb, stop, m, rfl, ?_⟩
      unfold blockLines
      simp only [y_bind, y_get, y_ite, y_peek0, y_pure]
      refine ⟨_, _, _, ⟨rfl, rfl, rfl⟩, ?_⟩
      by_cases hcol : (m.column : Int) = (k : Int)
      · have hz : c = 0 := by rcases hc with h | h; exact absurd (by omega) h; exact h
        subst hz
        exact .inl ⟨hcol, 0, _, _, ⟨r, rfl, rfl, rfl⟩, .inl ⟨by decide, trivial, rfl, rfl⟩⟩
      · exact .inr ⟨hcol, trivial, rfl, rfl⟩
  | last text r h1 h2 =>
    match n, f, hn, hf with
    | n + 2, f + 1, hn, hf =>
      cases text with
      | nil => exact absurd rfl h1
      | cons c t =>
        refine ⟨_, _, m.steps (c :: t).length, m.steps (c :: t).length, rfl, ?_⟩
        rw [blockLines]
        simp only [y_bind, y_get, y_ite, y_peek0, y_pure, y_cache2]
        refine ⟨_, _, _, ⟨rfl, rfl, rfl⟩, .inl ⟨by simp [hm], c, _, _, ⟨_, rfl, rfl, rfl⟩, .inr ⟨?_, blockJoin literal lb (isBlank c) s lead trail ++ c :: t, m.steps (c :: t).length, 0 :: r, ?_, (), _, _, ⟨rfl, rfl⟩, [], m.steps (c :: t).length, 0 :: r, ?_, ((k : Int), [], m.steps (c :: t).length), m.steps (c :: t).length, 0 :: r, ?_, ?_⟩⟩⟩
        · simpa [isZ] using (h2 c (by simp)).2
        · rw [y_readWhile hf]
          exact ⟨c :: t, rfl, not_breakz_iff.mpr h2, breakz_heads.mpr ⟨0, r, rfl, .inr rfl⟩, rfl, rfl⟩
        · rw [y_readLine]
          exact .inr ⟨⟨0, r, rfl, by simp [Brk]⟩, rfl, rfl, rfl⟩
        · have := blockBreaks_of (parent := parent) (blockBreaks_eof (f := f) (n := f) (start := start) (indent := (k : Int)) (mx := 0) (brs := []) (r := r)
            (m := m.steps (c :: t).length) (stop := m.steps (c :: t).length) |>.mpr ⟨rfl, rfl, rfl, rfl, rfl⟩)
          rw [if_neg (by omega)] at this
          exact this
        · rw [blockLines]
          simp only [y_bind, y_get, y_ite, y_peek0, y_pure]
          exact ⟨_, _, _, ⟨rfl, rfl, rfl⟩, .inr ⟨by simp [hm]; omega, by simp [startsBlank], rfl, rfl⟩⟩
    | 0, _, hn, _ => omega
    | 1, _, hn, _ => simp at hn
    | _, 0, _, hf => omega
  | @line text cs b cs' bs mx cs'' col ls mid rest h1 h2 hb he _ ih =>
    cases n with
    | zero => omega
    | succ n =>
      cases text with
      | nil => exact absurd rfl h1
      | cons c t =>
        have hl := hb.length
        have hl2 := he.length
        simp at hf hn
        obtain ⟨stop1, m1, q1, q2⟩ := empties_complete (f := f) (n := f) (start := start) (mx := 0) (brs := []) (m := (m.steps (c :: t).length).newline (cs.length - cs'.length))
          (stop := (m.steps (c :: t).length).newline (cs.length - cs'.length)) he rfl (by omega) (by omega)
        obtain ⟨st, b', stop', m', q3, q4⟩ := ih (m := m1) (n := n) (lb := isBlank c) (s := blockJoin literal lb (isBlank c) s lead trail ++ c :: t) (lead := [b]) (trail := bs) (stop := stop1) q2 (by omega) (by omega)
        refine ⟨st, b', stop', m', q3, ?_⟩
        unfold blockLines
        simp only [y_bind, y_get, y_ite, y_peek0, y_pure, y_cache2]
        obtain ⟨d, r, rfl, hd⟩ := hb.head
        refine ⟨_, _, _, ⟨rfl, rfl, rfl⟩, .inl ⟨by simp [hm], c, _, _, ⟨_, rfl, rfl, rfl⟩, .inr ⟨?_, blockJoin literal lb (isBlank c) s lead trail ++ c :: t, m.steps (c :: t).length, d :: r, ?_, (), _, _, ⟨rfl, rfl⟩, [b], (m.steps (c :: t).length).newline ((d :: r).length - cs'.length), cs', ?_, ((k : Int), bs, stop1), m1, cs'', ?_, q4⟩⟩⟩
        · simpa [isZ] using (h2 c (by simp)).2
        · rw [y_readWhile (by simp; omega)]
          exact ⟨c :: t, rfl, not_breakz_iff.mpr h2, breakz_heads.mpr ⟨d, r, rfl, .inl hd⟩, rfl, rfl⟩
        · rw [y_readLine]
          exact .inl ⟨b, hb, rfl, rfl⟩
        · have := blockBreaks_of (parent := parent) q1
          rw [if_neg (by omega)] at this
          exact this

/-! ### What the lines denote -/

theorem blockJoin_between {literal : Bool} {l l' : BlockLine} {s w : Text} (h : Between2 literal l l' w) :
    blockJoin literal (startsBlank l.text) (startsBlank l'.text) s (l.breaks.take 1) (l.breaks.drop 1) = s ++ w := by
  unfold blockJoin
  cases h with
  | kept h =>
    rw [spaced_iff, spaced_iff] at h
    rw [if_neg]
    · rw [List.append_assoc, List.take_append_drop]
    · rintro hc
      simp at hc
      rcases h with h | h | h
      · rw [h] at hc; simp at hc
      · rw [h] at hc; simp at hc
      · rw [h] at hc; simp at hc
  | folded h1 h2 h3 =>
    rw [spaced_iff] at h2 h3
    cases hb : l.breaks with
    | nil => simp [fold]
    | cons b bs =>
      by_cases hb' : b = 0xA
      · rw [if_pos (by simp [h1, hb', Bool.not_eq_true] at *; exact ⟨h2, h3⟩)]
        cases bs with
        | nil => simp [fold, hb']
        | cons x xs => simp [fold, hb']
      · rw [if_neg (by simp [hb'])]
        simp [fold, hb']

theorem joined_fold {literal : Bool} {l : BlockLine} {ls : List BlockLine} {v t : Text} (h : Joined literal (l :: ls) v t) (lb : Bool) (s lead trail : Text) :
    ∃ b, (l :: ls).foldl (addLine literal) (lb, s, lead, trail) = (b, blockJoin literal lb (startsBlank l.text) s lead trail ++ v, t.take 1, t.drop 1) := by
  generalize e : l :: ls = ls0 at h
  induction h generalizing l ls lb s lead trail with
  | nil => cases e
  | one l => cases e; exact ⟨_, rfl⟩
  | @cons l l' ls w v t hw _ ih =>
    cases e
    obtain ⟨b, hb⟩ := ih (startsBlank l.text) (blockJoin literal lb (startsBlank l.text) s lead trail ++ l.text) (l.breaks.take 1) (l.breaks.drop 1) rfl
    refine ⟨b, ?_⟩
    rw [List.foldl_cons]
    rw [show addLine literal (lb, s, lead, trail) l = (startsBlank l.text, blockJoin literal lb (startsBlank l.text) s lead trail ++ l.text, l.breaks.take 1, l.breaks.drop 1) from rfl]
    rw [hb, blockJoin_between hw]
    simp

theorem between_total (literal : Bool) (l l' : BlockLine) : ∃ w, Between2 literal l l' w := by
  by_cases h : literal = true ∨ l.spaced ∨ l'.spaced
  · exact ⟨_, .kept h⟩
  · simp only [not_or] at h
    exact ⟨_, .folded (by simpa using h.1) h.2.1 h.2.2⟩

theorem joined_total (literal : Bool) (l : BlockLine) (ls : List BlockLine) : ∃ v t, Joined literal (l :: ls) v t := by
  induction ls generalizing l with
  | nil => exact ⟨_, _, .one l⟩
  | cons l' ls ih =>
    obtain ⟨v, t, h⟩ := ih l'
    obtain ⟨w, hw⟩ := between_total literal l l'
    exact ⟨_, _, .cons hw h⟩

/-! ### The header -/

/-- The indicator. -/
def chompingOf : Chomp → Chomping
  | .strip => .strip
  | .clip => .clip
  | .keep => .keep

theorem chompOf_some {c : Nat} {x : Chomp} (h : chompOf c = some x) : ChompMark c (chompingOf x) := by
  unfold chompOf at h
  by_cases h1 : (c == 0x2B) = true
  · rw [if_pos h1] at h
    cases h
    rw [show c = 0x2B by simpa using h1]
    exact .keep
  · rw [if_neg h1] at h
    by_cases h2 : (c == 0x2D) = true
    · rw [if_pos h2] at h
      cases h
      rw [show c = 0x2D by simpa using h2]
      exact .strip
    · rw [if_neg h2] at h
      cases h

theorem chompOf_none {c : Nat} (h : chompOf c = none) : ∀ x, ¬ ChompMark c x := by
  intro x hx
  cases hx <;> simp [chompOf] at h

theorem chompOf_of {c : Nat} {x : Chomping} (h : ChompMark c x) : ∃ y, chompOf c = some y ∧ chompingOf y = x := by
  cases h
  · exact ⟨.strip, rfl, rfl⟩
  · exact ⟨.keep, rfl, rfl⟩

theorem chompOf_not {c : Nat} (h : ∀ x, ¬ ChompMark c x) : chompOf c = none := by
  cases hc : chompOf c with
  | none => rfl
  | some x => exact absurd (chompOf_some hc) (h _)

theorem increment_sound {start : Mark} {n : Nat} (h : Yields (scanIncrement start) m cs n m' cs') :
    (∃ a, cs = a :: cs' ∧ IndentMark a n) ∨ (n = 0 ∧ cs' = cs ∧ m' = m ∧ Heads (fun c => ¬ (0x30 ≤ c ∧ c ≤ 0x39)) cs) := by
  unfold scanIncrement at h
  simp only [y_bind, y_peek0, y_ite, y_err, y_skipC, y_pure, and_false, false_or] at h
  obtain ⟨c, _, _, ⟨r, rfl, rfl, rfl⟩, ⟨hd, h0, _, _, _, ⟨_, e, rfl⟩, rfl, rfl, rfl⟩ | ⟨hd, rfl, rfl, rfl⟩⟩ := h
  · cases e
    have hd : 0x30 ≤ c ∧ c ≤ 0x39 := by simpa [isDigit] using hd
    have h0 : c ≠ 0x30 := by simpa using h0
    refine .inl ⟨c, rfl, ?_⟩
    have := IndentMark.mk (c - 0x30) (by omega) (by omega)
    rw [show 0x30 + (c - 0x30) = c by omega] at this
    exact this
  · exact .inr ⟨rfl, rfl, rfl, c, r, rfl, by simpa [isDigit] using hd⟩

theorem increment_mark {start : Mark} {n a : Nat} (h : IndentMark a n) : Yields (scanIncrement start) m (a :: cs) n m.step cs := by
  cases h with
  | mk _ h1 h2 =>
    unfold scanIncrement
    simp only [y_bind, y_peek0, y_ite, y_err, y_skipC, y_pure, and_false, false_or]
    exact ⟨_, _, _, ⟨cs, rfl, rfl, rfl⟩, .inl ⟨by simp [isDigit]; omega, by simp; omega, (), _, _, ⟨_, rfl, rfl⟩, by simp [asDigit], rfl, rfl⟩⟩

theorem increment_none {start : Mark} (h : Heads (fun c => ¬ (0x30 ≤ c ∧ c ≤ 0x39)) cs) : Yields (scanIncrement start) m cs 0 m cs := by
  obtain ⟨c, r, rfl, h⟩ := h
  unfold scanIncrement
  simp only [y_bind, y_peek0, y_ite, y_err, y_skipC, y_pure, and_false, false_or]
  exact ⟨c, _, _, ⟨r, rfl, rfl, rfl⟩, .inr ⟨by simpa [isDigit] using h, trivial, rfl, rfl⟩⟩

theorem indentMark_digit {a n : Nat} (h : IndentMark a n) : (0x30 ≤ a ∧ a ≤ 0x39) ∧ n ≠ 0 ∧ chompOf a = none := by
  cases h with
  | mk _ h1 h2 =>
    refine ⟨by omega, by omega, ?_⟩
    unfold chompOf
    rw [if_neg (by rw [beq_iff_eq]; omega), if_neg (by rw [beq_iff_eq]; omega)]

theorem header_sound {start : Mark} {x : Chomp} {n : Nat} (h : Yields (scanBlockHeader start) m cs (x, n) m' cs') : Header cs (chompingOf x) n cs' := by
  unfold scanBlockHeader at h
  simp only [y_bind, y_peek0, y_cache1] at h
  obtain ⟨_, _, _, ⟨rfl, rfl⟩, c, _, _, ⟨r, rfl, rfl, rfl⟩, h⟩ := h
  cases hc : chompOf c with
  | some y =>
    rw [hc] at h
    simp only [y_bind, y_skipC, y_cache1, y_pure] at h
    obtain ⟨_, _, _, ⟨_, e, rfl⟩, _, _, _, ⟨rfl, rfl⟩, i, _, _, h, h', rfl, rfl⟩ := h
    cases e; cases h'
    rcases increment_sound h with ⟨a, rfl, h1⟩ | ⟨rfl, rfl, rfl, d, r', rfl, hd⟩
    · exact .both _ (chompOf_some hc) h1
    · exact .chomp d r' (chompOf_some hc) hd
  | none =>
    rw [hc] at h
    simp only [y_bind] at h
    obtain ⟨i, _, _, h, h'⟩ := h
    rcases increment_sound h with ⟨a, e, h1⟩ | ⟨rfl, rfl, rfl, d, r', e, hd⟩
    · cases e
      rw [if_neg (indentMark_digit h1).2.1] at h'
      simp only [y_bind, y_cache1, y_peek0] at h'
      obtain ⟨_, _, _, ⟨rfl, rfl⟩, d, _, _, ⟨r', rfl, rfl, rfl⟩, h'⟩ := h'
      cases hd : chompOf d with
      | some y =>
        rw [hd] at h'
        simp only [y_bind, y_skipC, y_pure] at h'
        obtain ⟨_, _, _, ⟨_, e, rfl⟩, h', rfl, rfl⟩ := h'
        cases e; cases h'
        exact .both' _ h1 (chompOf_some hd)
      | none =>
        rw [hd] at h'
        simp only [y_pure] at h'
        obtain ⟨h', rfl, rfl⟩ := h'
        cases h'
        exact .indent d r' h1 (chompOf_none hd)
    · cases e
      rw [if_pos rfl, y_pure] at h'
      obtain ⟨h', rfl, rfl⟩ := h'
      cases h'
      exact .none c r (chompOf_none hc) hd

theorem header_complete {start : Mark} {X : Chomping} {n : Nat} (h : Header cs X n cs') : ∃ x m', chompingOf x = X ∧ Yields (scanBlockHeader start) m cs (x, n) m' cs' := by
  unfold scanBlockHeader
  simp only [y_bind, y_peek0, y_cache1]
  cases h with
  | none c r h1 h2 =>
    refine ⟨.clip, m, rfl, (), _, _, ⟨rfl, rfl⟩, c, _, _, ⟨r, rfl, rfl, rfl⟩, ?_⟩
    rw [chompOf_not h1]
    simp only [y_bind]
    exact ⟨0, _, _, increment_none ⟨c, r, rfl, h2⟩, by rw [if_pos rfl, y_pure]; exact ⟨rfl, rfl, rfl⟩⟩
  | chomp c r h1 h2 =>
    obtain ⟨y, hy, rfl⟩ := chompOf_of h1
    refine ⟨y, m.step, rfl, (), _, _, ⟨rfl, rfl⟩, _, _, _, ⟨_, rfl, rfl, rfl⟩, ?_⟩
    rw [hy]
    simp only [y_bind, y_skipC, y_cache1, y_pure]
    exact ⟨(), _, _, ⟨_, rfl, rfl⟩, (), _, _, ⟨rfl, rfl⟩, 0, _, _, increment_none ⟨c, r, rfl, h2⟩, rfl, rfl, rfl⟩
  | indent c r h1 h2 =>
    refine ⟨.clip, m.step, rfl, (), _, _, ⟨rfl, rfl⟩, _, _, _, ⟨_, rfl, rfl, rfl⟩, ?_⟩
    rw [(indentMark_digit h1).2.2]
    simp only [y_bind]
    refine ⟨n, _, _, increment_mark h1, ?_⟩
    rw [if_neg (indentMark_digit h1).2.1]
    simp only [y_bind, y_cache1, y_peek0]
    refine ⟨(), _, _, ⟨rfl, rfl⟩, c, _, _, ⟨r, rfl, rfl, rfl⟩, ?_⟩
    rw [chompOf_not h2, y_pure]
    exact ⟨rfl, rfl, rfl⟩
  | both r h1 h2 =>
    obtain ⟨y, hy, rfl⟩ := chompOf_of h1
    refine ⟨y, m.step.step, rfl, (), _, _, ⟨rfl, rfl⟩, _, _, _, ⟨_, rfl, rfl, rfl⟩, ?_⟩
    rw [hy]
    simp only [y_bind, y_skipC, y_cache1, y_pure]
    exact ⟨(), _, _, ⟨_, rfl, rfl⟩, (), _, _, ⟨rfl, rfl⟩, n, _, _, increment_mark h2, rfl, rfl, rfl⟩
  | both' r h1 h2 =>
    obtain ⟨y, hy, rfl⟩ := chompOf_of h2
    refine ⟨y, m.step.step, rfl, (), _, _, ⟨rfl, rfl⟩, _, _, _, ⟨_, rfl, rfl, rfl⟩, ?_⟩
    rw [(indentMark_digit h1).2.2]
    simp only [y_bind]
    refine ⟨n, _, _, increment_mark h1, ?_⟩
    rw [if_neg (indentMark_digit h1).2.1]
    simp only [y_bind, y_cache1, y_peek0]
    refine ⟨(), _, _, ⟨rfl, rfl⟩, _, _, _, ⟨_, rfl, rfl, rfl⟩, ?_⟩
    rw [hy]
    simp only [y_bind, y_skipC, y_pure]
    exact ⟨(), _, _, ⟨_, rfl, rfl⟩, trivial, rfl, rfl⟩

theorem Spec.Header.length {X : Chomping} {n : Nat} (h : Header cs X n cs') : cs'.length ≤ cs.length := by
  cases h <;> simp <;> omega

/-! ### Block scalars -/

theorem chompTail_eq {x : Chomp} {s t : Text} : chompTail x s (t.take 1) (t.drop 1) = s ++ chomped (chompingOf x) t := by
  cases x
  · simp [chompTail, chomped, chompingOf]
  · simp [chompTail, chomped, chompingOf]
  · simp only [chompTail, chomped, chompingOf]
    rw [List.append_assoc, List.take_append_drop]

theorem indentOf_eq {parent : Int} {n : Nat} : (if n = 0 then (0 : Int) else if parent ≥ 0 then parent + n else n) = ((if n = 0 then 0 else (max parent 0).toNat + n : Nat) : Int) := by
  by_cases hn : n = 0
  · simp [hn]
  · rw [if_neg hn, if_neg hn]
    by_cases hp : parent ≥ 0
    · rw [if_pos hp]; omega
    · rw [if_neg hp]; omega

theorem foundIndent_eq {parent : Int} {mx : Nat} : foundIndent parent mx = ((max (max mx 1) (parent + 1).toNat : Nat) : Int) := by
  simp only [foundIndent]
  by_cases h1 : (mx : Int) < parent + 1
  · rw [if_pos h1]
    by_cases h2 : parent + 1 < 1
    · rw [if_pos h2]; omega
    · rw [if_neg h2]; omega
  · rw [if_neg h1]
    by_cases h2 : (mx : Int) < 1
    · rw [if_pos h2]; omega
    · rw [if_neg h2]; omega

/-- The indentation of the lines. -/
theorem found_eq {parent : Int} {n mx : Nat} :
    (if ((if n = 0 then 0 else (max parent 0).toNat + n : Nat) : Int) = 0 then foundIndent parent mx else ((if n = 0 then 0 else (max parent 0).toNat + n : Nat) : Int)) =
      ((if n = 0 then max (max mx 1) (parent + 1).toNat else (max parent 0).toNat + n : Nat) : Int) := by
  by_cases hn : n = 0
  · rw [if_pos hn, if_pos hn, if_pos (by simp), foundIndent_eq]
  · rw [if_neg hn, if_neg hn, if_neg (by omega)]

theorem blockJoin_first {literal b : Bool} {bs : Text} : blockJoin literal false b [] [] bs = bs := by
  simp [blockJoin]

/-- What the lines denote, with the line breaks `bs` in front of them. -/
theorem lines_value {literal b : Bool} {x : Chomp} {ls : List BlockLine} {bs s lead trail : Text} (h : ls.foldl (addLine literal) (false, [], [], bs) = (b, s, lead, trail)) :
    ∃ v t, Joined literal ls v t ∧ chompTail x s lead trail = if ls = [] then (if chompingOf x = .keep then bs else []) else bs ++ (v ++ chomped (chompingOf x) t) := by
  cases ls with
  | nil =>
    simp only [List.foldl_nil, Prod.mk.injEq] at h
    obtain ⟨_, rfl, rfl, rfl⟩ := h
    refine ⟨[], [], .nil, ?_⟩
    cases x <;> simp [chompTail, chompingOf]
  | cons l ls =>
    obtain ⟨v, t, hj⟩ := joined_total literal l ls
    obtain ⟨b', e⟩ := joined_fold hj false [] [] bs
    rw [e] at h
    simp only [Prod.mk.injEq] at h
    obtain ⟨_, rfl, rfl, rfl⟩ := h
    refine ⟨v, t, hj, ?_⟩
    rw [chompTail_eq, blockJoin_first, if_neg (by simp), List.append_assoc]

theorem joined_fun {literal : Bool} {ls : List BlockLine} {v t v' t' : Text} (h : Joined literal ls v t) (h' : Joined literal ls v' t') : v = v' ∧ t.take 1 = t'.take 1 ∧ t.drop 1 = t'.drop 1 := by
  cases ls with
  | nil => cases h; cases h'; simp
  | cons l ls =>
    obtain ⟨b, e⟩ := joined_fold h false [] [] []
    obtain ⟨b', e'⟩ := joined_fold h' false [] [] []
    rw [e'] at e
    simp only [Prod.mk.injEq] at e
    exact ⟨(List.append_cancel_left e.2.1).symm, e.2.2.1.symm, e.2.2.2.symm⟩

theorem found_pos {parent : Int} {n mx : Nat} : (if n = 0 then max (max mx 1) (parent + 1).toNat else (max parent 0).toNat + n) ≠ 0 := by
  split <;> omega

theorem Spec.Empties.zero {N : Nat} {bs : List Nat} {mx col : Nat} (h : Empties N cs bs mx cs' col) (hz : 0 ∈ cs) : 0 ∈ cs' := by
  induction h with
  | last k c r h1 h2 h3 => exact zero_append (fun x hx => by rw [List.eq_of_mem_replicate hx]; simp) hz
  | line k hb _ _ ih => exact ih (hb.zero (zero_append (fun x hx => by rw [List.eq_of_mem_replicate hx]; simp) hz))

theorem scanBlockScalar_sound {f : Nat} {parent : Int} {literal : Bool} {q : Nat} {t : TokData} {a b : Mark} (hf : cs.length < f)
    (h : Yields (scanBlockScalar f parent literal) m (q :: cs) { data := t, start := a, stop := b } m' cs') :
    ∃ v mid, BlockScalar literal parent cs v mid cs' ∧ t = .scalar v (if literal = true then .literal else .folded) ∧
      b.index + mid.length = m.index + (cs.length + 1) := by
  unfold scanBlockScalar at h
  simp only [y_bind, y_get, y_skipC, y_cache1, y_pure] at h
  obtain ⟨_, _, _, ⟨rfl, rfl, rfl⟩, _, _, _, ⟨_, e, rfl⟩, ⟨x, n⟩, m1, cs1, h1, _, m2, cs2, h2, ⟨i, brs, st⟩, m3, cs3, h3, _, _, _, ⟨rfl, rfl⟩, ⟨s, lead, trail, st2⟩, _, _, h4, h5, rfl, rfl⟩ := h
  cases e
  cases h5
  have k1 := header_sound h1
  have k1l := k1.length
  obtain ⟨eof, k2, k3⟩ := finishLine_sound (by omega) h2
  have k2l := k2.length
  dsimp only at h3 h4
  rw [indentOf_eq] at h3
  unfold blockBreaks at h3
  simp only [y_bind, y_get, y_pure] at h3
  obtain ⟨_, _, _, ⟨rfl, rfl, rfl⟩, ⟨mx, brs', st3⟩, _, _, h3, h6, rfl, rfl⟩ := h3
  cases h6
  dsimp only at h4
  rw [found_eq] at h4
  cases eof with
  | true =>
    cases k2 with
    | eof ws com r j1 j2 j3 =>
      obtain ⟨f, rfl⟩ : ∃ g, f = g + 1 := ⟨f - 1, by omega⟩
      rw [blockBreaks_eof] at h3
      obtain ⟨rfl, rfl, rfl, rfl, rfl⟩ := h3
      obtain ⟨e, rfl, rfl⟩ := blockLines_eof h4
      cases e
      refine ⟨_, _, .eof k1 (.eof ws com r j1 j2 j3), ?_, ?_⟩
      · cases x <;> simp [chompTail]
      · have e1 := tracks_blockHeader _ _ _ _ _ h1
        have e2 := tracks_finishLine _ _ _ _ _ h2
        simp at e1 e2 ⊢; omega
  | false =>
    obtain ⟨bs, mx1, q1, rfl, rfl, q5, q6⟩ := empties_sound (k3 rfl) h3
    have q1l := q1.length
    obtain ⟨ls, b, mid, p1, p2, p3, p4⟩ := blockLines_sound found_pos (by omega) q1.stops h4
    obtain ⟨v, t, j, e⟩ := lines_value (x := x) p2
    have e1 := tracks_blockHeader _ _ _ _ _ h1
    have e2 := tracks_finishLine _ _ _ _ _ h2
    have e3 := p4 (q6 rfl)
    exact ⟨_, _, .lines _ k1 k2 q1 rfl p1 j, by rw [e], by simp at e1 e3 ⊢; omega⟩

theorem scanBlockScalar_complete {f : Nat} {parent : Int} {literal : Bool} {q : Nat} {v mid : Text} (hf : cs.length < f) (h : BlockScalar literal parent cs v mid cs') :
    ∃ a b m', Yields (scanBlockScalar f parent literal) m (q :: cs) { data := .scalar v (if literal = true then .literal else .folded), start := a, stop := b } m' cs' := by
  unfold scanBlockScalar
  simp only [y_bind, y_get, y_skipC, y_cache1, y_pure]
  cases h with
  | eof k1 k2 =>
    rename_i X n cs1 r
    have k1l := k1.length
    have k2l := k2.length
    obtain ⟨x, m1, rfl, h1⟩ := header_complete (start := m) (m := m.step) k1
    obtain ⟨m2, h2, _⟩ := finishLine_complete (f := f) (ctx := "while scanning a block scalar") (start := m) (m := m1) (by omega) k2
    obtain ⟨f, rfl⟩ : ∃ g, f = g + 1 := ⟨f - 1, by omega⟩
    have h3 := blockBreaks_of (parent := parent) (blockBreaks_eof (f := f) (n := f) (start := m) (indent := ((if n = 0 then 0 else (max parent 0).toNat + n : Nat) : Int)) (mx := 0) (brs := []) (r := r) (stop := m2) (m := m2) |>.mpr ⟨rfl, rfl, rfl, rfl, rfl⟩)
    rw [found_eq] at h3
    obtain ⟨st, b, stop', m', p1, p2⟩ := blockLines_complete (f := f + 1) (n := f + 1) (start := m) (parent := parent) (literal := literal) (lb := false) (s := []) (lead := []) (trail := []) (stop := m2)
      found_pos (BlockText.over m2.column (0 :: r) ⟨0, r, rfl, .inr rfl⟩) rfl (by omega) (by omega)
    simp only [List.foldl_nil, Prod.mk.injEq] at p1
    obtain ⟨_, rfl⟩ := p1
    refine ⟨m, stop', m', m, m, _, ⟨rfl, rfl, rfl⟩, (), _, _, ⟨_, rfl, rfl⟩, (x, n), m1, cs1, h1, (), m2, _, h2, _, _, _, by rw [indentOf_eq]; exact h3, (), _, _, ⟨rfl, rfl⟩, _, _, _, p2, ?_, rfl, rfl⟩
    cases x <;> simp [chompTail]
  | lines k k1 k2 k3 hk k4 j =>
    rename_i X n cs1 cs2 bs mx cs3 col ls vv t
    have k1l := k1.length
    have k2l := k2.length
    have k3l := k3.length
    obtain ⟨x, m1, rfl, h1⟩ := header_complete (start := m) (m := m.step) k1
    obtain ⟨m2, h2, c2, _⟩ := finishLine_complete (f := f) (ctx := "while scanning a block scalar") (start := m) (m := m1) (by omega) k2
    obtain ⟨stop3, m3, h3, c3⟩ := empties_complete (f := f) (n := f) (start := m) (mx := 0) (brs := []) (stop := m2) k3 (c2 rfl) (by omega) (by omega)
    have h3 := blockBreaks_of (parent := parent) h3
    rw [found_eq, Nat.zero_max, ← hk, List.nil_append] at h3
    obtain ⟨st, b, stop', m', p1, p2⟩ := blockLines_complete (f := f) (n := f) (start := m) (parent := parent) (literal := literal) (lb := false) (s := []) (lead := []) (trail := bs) (stop := stop3)
      (by rw [hk]; exact found_pos) k4 c3 (by omega) (by omega)
    obtain ⟨v', t', j', e⟩ := lines_value (x := x) p1
    obtain ⟨rfl, e1, e2⟩ := joined_fun j j'
    refine ⟨m, stop', m', m, m, _, ⟨rfl, rfl, rfl⟩, (), _, _, ⟨_, rfl, rfl⟩, (x, n), m1, cs1, h1, (), m2, _, h2, _, _, _, by rw [indentOf_eq]; exact h3, (), _, _, ⟨rfl, rfl⟩, _, _, _, p2, ?_, rfl, rfl⟩
    rw [e, ← chompTail_eq, ← chompTail_eq, e1, e2]

/-! ### There is one reading -/

theorem header_unique {X X' : Chomping} {n n' : Nat} {r r' : Text} (h : Header cs X n r) (h' : Header cs X' n' r') : X = X' ∧ n = n' ∧ r = r' := by
  obtain ⟨x, m1, rfl, h1⟩ := header_complete (start := {}) (m := {}) h
  obtain ⟨x', m2, rfl, h2⟩ := header_complete (start := {}) (m := {}) h'
  obtain ⟨e, _, rfl⟩ := y_det h1 h2
  cases e
  exact ⟨rfl, rfl, rfl⟩

theorem lineEnd_unique {e e' : Bool} {r r' : Text} (h : LineEnd cs r e) (h' : LineEnd cs r' e') : r = r' ∧ e = e' := by
  obtain ⟨m1, h1, a1, b1⟩ := finishLine_complete (f := cs.length + 1) (ctx := "") (start := {}) (m := { column := 1 }) (by omega) h
  obtain ⟨m2, h2, a2, b2⟩ := finishLine_complete (f := cs.length + 1) (ctx := "") (start := {}) (m := { column := 1 }) (by omega) h'
  obtain ⟨_, rfl, rfl⟩ := y_det h1 h2
  refine ⟨rfl, ?_⟩
  cases e <;> cases e' <;> simp at a1 b1 a2 b2 <;> first | rfl | omega

theorem empties_unique {N : Nat} {bs bs' : List Nat} {mx mx' col col' : Nat} {r r' : Text} (h : Empties N cs bs mx r col) (h' : Empties N cs bs' mx' r' col') :
    bs = bs' ∧ mx = mx' ∧ r = r' ∧ col = col' := by
  obtain ⟨s1, m1, h1, rfl⟩ := empties_complete (f := cs.length + 1) (n := cs.length + 1) (start := {}) (mx := 0) (brs := []) (stop := {}) (m := {}) h rfl (by omega) (by omega)
  obtain ⟨s2, m2, h2, rfl⟩ := empties_complete (f := cs.length + 1) (n := cs.length + 1) (start := {}) (mx := 0) (brs := []) (stop := {}) (m := {}) h' rfl (by omega) (by omega)
  obtain ⟨e, rfl, rfl⟩ := y_det h1 h2
  simp at e
  exact ⟨e.2.1, e.1, rfl, rfl⟩

theorem text_unique {a b : Text} {r r' : Text} (ha : ∀ x ∈ a, ¬ Brk x ∧ x ≠ 0) (hb : ∀ x ∈ b, ¬ Brk x ∧ x ≠ 0) (hr : Heads (fun c => Brk c ∨ c = 0) r)
    (hr' : Heads (fun c => Brk c ∨ c = 0) r') (h : a ++ r = b ++ r') : a = b ∧ r = r' := by
  have key : ∀ {x : Nat} {l t : Text}, (∀ y ∈ x :: l, ¬ Brk y ∧ y ≠ 0) → Heads (fun c => Brk c ∨ c = 0) t → t ≠ x :: l ++ r' := by
    rintro x l t h1 ⟨c, r, rfl, hc⟩ e
    cases e
    have := h1 x (by simp)
    rcases hc with h | h
    · exact this.1 h
    · exact this.2 h
  induction a generalizing b with
  | nil =>
    cases b with
    | nil => exact ⟨rfl, h⟩
    | cons x b => exact absurd h (key hb hr)
  | cons x a ih =>
    cases b with
    | nil =>
      obtain ⟨c, t, rfl, hc⟩ := hr'
      cases h
      have := ha x (by simp)
      rcases hc with h | h
      · exact absurd h this.1
      · exact absurd h this.2
    | cons y b =>
      simp only [List.cons_append, List.cons.injEq] at h
      obtain ⟨rfl, h⟩ := h
      obtain ⟨rfl, rfl⟩ := ih (fun z hz => ha z (by simp [hz])) (fun z hz => hb z (by simp [hz])) h
      exact ⟨rfl, rfl⟩

theorem breakAt_heads {b : Nat} {r : Text} (h : BreakAt cs b r) : Heads (fun c => Brk c ∨ c = 0) cs := by
  obtain ⟨c, r, rfl, hc⟩ := h.head
  exact ⟨c, r, rfl, .inl hc⟩

theorem breakAt_unique {b b' : Nat} {r r' : Text} (h : BreakAt cs b r) (h' : BreakAt cs b' r') : b = b' ∧ r = r' := by
  have h1 := y_readLine (m := {}) (s := []) |>.mpr (.inl ⟨b, h, rfl, rfl⟩)
  have h2 := y_readLine (m := {}) (s := []) |>.mpr (.inl ⟨b', h', rfl, rfl⟩)
  obtain ⟨e, _, rfl⟩ := y_det h1 h2
  simp at e
  exact ⟨e, rfl⟩

theorem over_absurd {n : Nat} {text r : Text} (h : Heads (fun c => n ≠ n ∨ c = 0) (text ++ r)) (h1 : text ≠ []) (h2 : ∀ x ∈ text, ¬ Brk x ∧ x ≠ 0) : False := by
  cases text with
  | nil => exact h1 rfl
  | cons c t =>
    obtain ⟨_, _, e, hc⟩ := h
    cases e
    rcases hc with hc | hc
    · exact hc rfl
    · exact (h2 c (by simp)).2 hc

theorem blockText_unique_over {n col : Nat} {ls' : List BlockLine} {mid' r' : Text} (h : Heads (fun c => col ≠ n ∨ c = 0) cs) (h' : BlockText n col cs ls' mid' r') :
    [] = ls' ∧ List.replicate col 0x20 ++ cs = mid' ∧ cs = r' := by
  cases h' with
  | over => exact ⟨rfl, rfl, rfl⟩
  | last text r h1 h2 => exact (over_absurd h h1 h2).elim
  | line text h1 h2 => exact (over_absurd h h1 h2).elim

theorem blockText_unique {n col : Nat} {ls ls' : List BlockLine} {mid mid' r r' : Text} (h : BlockText n col cs ls mid r) (h' : BlockText n col cs ls' mid' r') :
    ls = ls' ∧ mid = mid' ∧ r = r' := by
  induction h generalizing ls' mid' r' with
  | over col cs h =>
    exact blockText_unique_over h h'
  | last text r h1 h2 =>
    generalize e : text ++ 0 :: r = cs at h'
    cases h' with
    | over _ _ h => subst e; exact (over_absurd h h1 h2).elim
    | last text' r' h1' h2' =>
      obtain ⟨rfl, e2⟩ := text_unique h2 h2' ⟨_, _, rfl, .inr rfl⟩ ⟨_, _, rfl, .inr rfl⟩ e
      cases e2
      exact ⟨rfl, rfl, rfl⟩
    | line text' h1' h2' hb =>
      obtain ⟨rfl, rfl⟩ := text_unique h2 h2' ⟨_, _, rfl, .inr rfl⟩ (breakAt_heads hb) e
      obtain ⟨_, _, e, hc⟩ := hb.head
      cases e
      simp [Brk] at hc
  | @line text cs b cs' bs mx cs'' col ls mid rest h1 h2 hb he _ ih =>
    generalize e : text ++ cs = t at h'
    cases h' with
    | over _ _ h => subst e; exact (over_absurd h h1 h2).elim
    | last text' r' h1' h2' =>
      obtain ⟨rfl, rfl⟩ := text_unique h2 h2' (breakAt_heads hb) ⟨_, _, rfl, .inr rfl⟩ e
      obtain ⟨_, _, e, hc⟩ := hb.head
      cases e
      simp [Brk] at hc
    | line text' h1' h2' hb' he' ht' =>
      obtain ⟨rfl, rfl⟩ := text_unique h2 h2' (breakAt_heads hb) (breakAt_heads hb') e
      obtain ⟨rfl, rfl⟩ := breakAt_unique hb hb'
      obtain ⟨rfl, rfl, rfl, rfl⟩ := empties_unique he he'
      obtain ⟨rfl, rfl, rfl⟩ := ih ht'
      exact ⟨rfl, rfl, rfl⟩

/-- The text determines the block scalar. -/
theorem blockScalar_unique {literal : Bool} {parent : Int} {v v' mid mid' r r' : Text} (h : BlockScalar literal parent cs v mid r)
    (h' : BlockScalar literal parent cs v' mid' r') : v = v' ∧ mid = mid' ∧ r = r' := by
  obtain ⟨_, _, m1, y1⟩ := scanBlockScalar_complete (f := cs.length + 1) (q := 0) (m := {}) (by omega) h
  obtain ⟨_, _, m2, y2⟩ := scanBlockScalar_complete (f := cs.length + 1) (q := 0) (m := {}) (by omega) h'
  obtain ⟨e, _, rfl⟩ := y_det y1 y2
  simp at e
  refine ⟨e.1, ?_, rfl⟩
  cases h with
  | eof h1 h2 =>
    cases h' with
    | eof => rfl
    | lines k h1' h2' h3' hk h4' =>
      obtain ⟨rfl, rfl, rfl⟩ := header_unique h1 h1'
      cases (lineEnd_unique h2 h2').2
  | lines k h1 h2 h3 hk h4 =>
    cases h' with
    | eof h1' h2' =>
      obtain ⟨rfl, rfl, rfl⟩ := header_unique h1 h1'
      cases (lineEnd_unique h2 h2').2
    | lines k' h1' h2' h3' hk' h4' =>
      obtain ⟨rfl, rfl, rfl⟩ := header_unique h1 h1'
      obtain ⟨rfl, _⟩ := lineEnd_unique h2 h2'
      obtain ⟨rfl, rfl, rfl, rfl⟩ := empties_unique h3 h3'
      subst hk hk'
      exact (blockText_unique h4 h4').2.1

theorem scanBlockScalar_iff {f : Nat} {parent : Int} {literal : Bool} {q : Nat} {t : TokData} (hf : cs.length < f) :
    (∃ a b m', Yields (scanBlockScalar f parent literal) m (q :: cs) { data := t, start := a, stop := b } m' cs') ↔
      ∃ v mid, BlockScalar literal parent cs v mid cs' ∧ t = .scalar v (if literal = true then .literal else .folded) := by
  constructor
  · rintro ⟨a, b, m', h⟩
    obtain ⟨v, mid, h1, h2, _⟩ := scanBlockScalar_sound hf h
    exact ⟨v, mid, h1, h2⟩
  · rintro ⟨v, mid, h, rfl⟩
    exact scanBlockScalar_complete hf h

end LibYaml
