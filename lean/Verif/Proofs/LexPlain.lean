import Verif.Proofs.LexQuoted

/-!
# Plain scalars against the lexical rules
-/

namespace LibYaml

open Spec

variable {m m' : Mark} {cs cs' : Text}

/-- The loop behind the characters of a plain scalar. -/
def plainRest (f : Nat) (start : Mark) (flow : Bool) (indent : Int) (n : Nat) (p : Text × Gap × Mark) : Lex (Text × Gap × Mark) := do
  let c ← peekC 0
  if isBlank c || isBreak c then
    cacheC 1
    let g ← plainBlanks start indent f p.2.1
    if !flow && decide ((← get).column < indent) then pure (p.1, g, p.2.2)
    else plainBody f start flow indent n p.1 g p.2.2
  else pure p

/-- A plain scalar ends here whatever the indentation. -/
def PlainDone (flow : Bool) (col : Nat) (cs : Text) : Prop := DocAt col cs ∨ (∃ r, cs = 0x23 :: r) ∨ PlainStops flow cs

theorem plainOver_iff {flow : Bool} {indent : Int} {col : Nat} : PlainOver flow indent col cs ↔ (flow = false ∧ (col : Int) < indent) ∨ PlainDone flow col cs := Iff.rfl

theorem plainStops_head {flow : Bool} (h : PlainStops flow cs) : Heads (fun c => ¬ Blank c ∧ ¬ Brk c) cs := by
  rcases h with ⟨r, rfl⟩ | ⟨d, r, rfl, _⟩ | ⟨_, c, r, rfl, hc⟩
  · exact ⟨_, _, rfl, by simp [Blank], by simp [Brk]⟩
  · exact ⟨_, _, rfl, by simp [Blank], by simp [Brk]⟩
  · refine ⟨_, _, rfl, ?_, ?_⟩ <;> (simp [Blank, Brk, FlowMark] at *; omega)

theorem plainBody_says {f n : Nat} {start : Mark} {flow : Bool} {indent : Int} {s : Text} {g : Gap} {stop : Mark} {p : Text × Gap × Mark}
    (h : Yields (plainBody f start flow indent (n + 1) s g stop) m cs p m' cs') :
    ((DocAt m.column cs ∨ ∃ r, cs = 0x23 :: r) ∧ p = (s, g, stop) ∧ m' = m ∧ cs' = cs) ∨
    (¬ DocAt m.column cs ∧ (¬ ∃ r, cs = 0x23 :: r) ∧ Yields (plainChars start flow f s g stop >>= plainRest f start flow indent n) m cs p m' cs') := by
  unfold plainBody at h
  simp only [y_bind, y_ite, y_cache4, y_peek0, y_pure] at h
  obtain ⟨_, _, _, ⟨rfl, rfl⟩, b, _, _, h1, h⟩ := h
  obtain ⟨rfl, rfl, h1⟩ := docIndicator_says h1
  rcases h with ⟨hb, rfl, rfl, rfl⟩ | ⟨hb, c, _, _, ⟨r, rfl, rfl, rfl⟩, h⟩
  · exact .inl ⟨.inl (h1.mp hb), rfl, rfl, rfl⟩
  · rcases h with ⟨hc, rfl, rfl, rfl⟩ | ⟨hc, p1, m1, cs1, h2, h3⟩
    · have hc : c = 0x23 := by simpa using hc
      subst hc
      exact .inl ⟨.inr ⟨r, rfl⟩, rfl, rfl, rfl⟩
    · refine .inr ⟨fun hd => hb (h1.mpr hd), ?_, ?_⟩
      · rintro ⟨_, e⟩; cases e; simp at hc
      · rw [y_bind]
        refine ⟨p1, m1, cs1, h2, ?_⟩
        unfold plainRest
        simp only [y_bind, y_ite, y_peek0, y_pure]
        exact h3

theorem plainBody_over {f n : Nat} {start : Mark} {flow : Bool} {indent : Int} {s : Text} {g : Gap} {stop : Mark} (hz : 0 ∈ cs)
    (h : DocAt m.column cs ∨ ∃ r, cs = 0x23 :: r) : Yields (plainBody f start flow indent (n + 1) s g stop) m cs (s, g, stop) m cs := by
  unfold plainBody
  simp only [y_bind, y_ite, y_cache4, y_peek0, y_pure]
  by_cases hd : DocAt m.column cs
  · exact ⟨(), _, _, ⟨rfl, rfl⟩, true, _, _, (y_docIndicator hz).mpr ⟨rfl, rfl, by simp [hd]⟩, .inl ⟨rfl, trivial, rfl, rfl⟩⟩
  · rcases h with h | ⟨r, rfl⟩
    · exact absurd h hd
    · exact ⟨(), _, _, ⟨rfl, rfl⟩, false, _, _, (y_docIndicator hz).mpr ⟨rfl, rfl, by simp [hd]⟩, .inr ⟨by simp, _, _, _, ⟨r, rfl, rfl, rfl⟩, .inl ⟨by simp, trivial, rfl, rfl⟩⟩⟩

theorem plainBody_on {f n : Nat} {start : Mark} {flow : Bool} {indent : Int} {s : Text} {g : Gap} {stop : Mark} {p : Text × Gap × Mark} (hz : 0 ∈ cs)
    (h1 : ¬ DocAt m.column cs) (h2 : ¬ ∃ r, cs = 0x23 :: r) (h : Yields (plainChars start flow f s g stop >>= plainRest f start flow indent n) m cs p m' cs') :
    Yields (plainBody f start flow indent (n + 1) s g stop) m cs p m' cs' := by
  unfold plainBody
  simp only [y_bind, y_ite, y_cache4, y_peek0, y_pure]
  rw [y_bind] at h
  obtain ⟨p1, m1, cs1, h3, h4⟩ := h
  cases cs with
  | nil => simp at hz
  | cons c r =>
    refine ⟨(), _, _, ⟨rfl, rfl⟩, false, _, _, (y_docIndicator hz).mpr ⟨rfl, rfl, by simp [h1]⟩, .inr ⟨by simp, c, _, _, ⟨r, rfl, rfl, rfl⟩, .inr ⟨?_, p1, m1, cs1, h3, ?_⟩⟩⟩
    · intro hc
      have hc : c = 0x23 := by simpa using hc
      exact h2 ⟨r, by rw [hc]⟩
    · unfold plainRest at h4
      simp only [y_bind, y_ite, y_peek0, y_pure] at h4
      exact h4

theorem joinGap_none {s : Text} : joinGap s {} = s := by simp [joinGap]

/-- One step of the loop over the characters. -/
theorem y_plainChars {start : Mark} {flow : Bool} {n : Nat} {s : Text} {g : Gap} {stop : Mark} {p : Text × Gap × Mark} :
    Yields (plainChars start flow (n + 1) s g stop) m cs p m' cs' ↔
      ((Heads White cs ∨ PlainStops flow cs) ∧ p = (s, g, stop) ∧ m' = m ∧ cs' = cs) ∨
      (PlainChar flow cs ∧ ∃ c r, cs = c :: r ∧ Yields (plainChars start flow n (joinGap s g ++ [c]) {} m.step) m.step r p m' cs') := by
  rw [plainChars]
  simp only [y_bind, y_ite, y_peek0, y_peek1, y_pure, y_readC, y_get, y_cache2, y_err, and_false, false_or]
  constructor
  · rintro ⟨c, _, _, ⟨r, rfl, rfl, rfl⟩, ⟨hw, rfl, rfl, rfl⟩ | ⟨hw, h⟩⟩
    · exact .inl ⟨.inl ⟨c, r, rfl, white_iff.mp hw⟩, rfl, rfl, rfl⟩
    · rw [white_iff] at hw
      rcases h with ⟨hc, d, _, _, ⟨_, r', e, _, rfl, rfl⟩, hf, h⟩ | ⟨hc, h⟩
      · cases e
        have hc : c = 0x3A := by simpa using hc
        subst hc
        rcases h with ⟨hd, rfl, rfl, rfl⟩ | ⟨hd, _, _, _, ⟨_, e, rfl, rfl⟩, _, _, _, ⟨rfl, rfl, rfl⟩, _, _, _, ⟨rfl, rfl⟩, h⟩
        · exact .inl ⟨.inr (.inr (.inl ⟨d, r', rfl, white_iff.mp hd⟩)), rfl, rfl, rfl⟩
        · cases e
          rw [white_iff] at hd
          refine .inr ⟨⟨_, _, rfl, hw, by simp [FlowMark], fun _ => ⟨d, r', rfl, hd, ?_⟩⟩, _, _, rfl, h⟩
          rintro rfl
          simp at hf
          exact ⟨by rw [← flowMark_iff]; simp [hf.1], hf.2⟩
      · rcases h with ⟨hf, rfl, rfl, rfl⟩ | ⟨hf, _, _, _, ⟨_, e, rfl, rfl⟩, _, _, _, ⟨rfl, rfl, rfl⟩, _, _, _, ⟨rfl, rfl⟩, h⟩
        · have hf : flow = true ∧ isFlowIndicator c = true := by simpa using hf
          exact .inl ⟨.inr (.inr (.inr ⟨hf.1, c, r, rfl, flowMark_iff.mp hf.2⟩)), rfl, rfl, rfl⟩
        · cases e
          refine .inr ⟨⟨_, _, rfl, hw, ?_, ?_⟩, _, _, rfl, h⟩
          · rintro rfl
            rw [← flowMark_iff]
            simpa using hf
          · rintro rfl; simp at hc
  · rintro (⟨h, rfl, rfl, rfl⟩ | ⟨⟨c, r, rfl, hw, hf, hc⟩, _, _, e, h⟩)
    · rcases h with ⟨c, r, rfl, hw⟩ | ⟨r, rfl⟩ | ⟨d, r, rfl, hd⟩ | ⟨hfl, c, r, rfl, hc⟩
      · exact ⟨c, _, _, ⟨r, rfl, rfl, rfl⟩, .inl ⟨white_iff.mpr hw, rfl, rfl, rfl⟩⟩
      · exact ⟨0, _, _, ⟨r, rfl, rfl, rfl⟩, .inl ⟨white_iff.mpr white_zero, rfl, rfl, rfl⟩⟩
      · refine ⟨_, _, _, ⟨_, rfl, rfl, rfl⟩, .inr ⟨by decide, .inl ⟨by decide, d, _, _, ⟨_, r, rfl, by decide, rfl, rfl⟩, ?_, .inl ⟨white_iff.mpr hd, rfl, rfl, rfl⟩⟩⟩⟩
        simp
        intro _
        simp [White, Blank, Brk] at hd
        constructor
        · rw [← Bool.not_eq_true, flowMark_iff]; simp [FlowMark]; omega
        · omega
      · have : c ≠ 0x3A ∧ ¬ White c := by simp [White, Blank, Brk, FlowMark] at *; omega
        exact ⟨c, _, _, ⟨r, rfl, rfl, rfl⟩, .inr ⟨by rw [white_iff]; exact this.2, .inr ⟨by simpa using this.1, .inl ⟨by simp [hfl, flowMark_iff.mpr hc], rfl, rfl, rfl⟩⟩⟩⟩
    · cases e
      refine ⟨c, _, _, ⟨r, rfl, rfl, rfl⟩, .inr ⟨by rw [white_iff]; exact hw, ?_⟩⟩
      by_cases hcc : c = 0x3A
      · subst hcc
        obtain ⟨d, r', rfl, hd, hd'⟩ := hc rfl
        refine .inl ⟨by decide, d, _, _, ⟨_, r', rfl, by decide, rfl, rfl⟩, ?_, .inr ⟨by rw [white_iff]; exact hd, _, _, _, ⟨_, rfl, rfl, rfl⟩, _, _, _, ⟨rfl, rfl, rfl⟩, (), _, _, ⟨rfl, rfl⟩, h⟩⟩
        simp
        intro hfl
        exact ⟨by rw [← Bool.not_eq_true, flowMark_iff]; exact (hd' hfl).1, (hd' hfl).2⟩
      · refine .inr ⟨by simpa using hcc, .inr ⟨?_, _, _, _, ⟨_, rfl, rfl, rfl⟩, _, _, _, ⟨rfl, rfl, rfl⟩, (), _, _, ⟨rfl, rfl⟩, h⟩⟩
        simp
        intro hfl
        rw [← Bool.not_eq_true, flowMark_iff]; exact hf hfl

theorem plainStops_not_char {flow : Bool} (h : PlainStops flow cs) : ¬ PlainChar flow cs := by
  rintro ⟨c, r, rfl, hw, hf, hc⟩
  rcases h with ⟨r, e⟩ | ⟨d, r, e, hd⟩ | ⟨hfl, _, _, e, hm⟩
  · cases e; exact hw white_zero
  · cases e
    obtain ⟨_, _, e, h, _⟩ := hc rfl
    cases e; exact h hd
  · cases e; exact hf hfl hm

theorem plainBody_sound {f n : Nat} {start : Mark} {flow : Bool} {indent : Int} {s s' : Text} {g g' : Gap} {stop stop' : Mark}
    (hg : g = {} ∨ Heads (fun c => ¬ Blank c ∧ ¬ Brk c) cs) (h : Yields (plainBody f start flow indent n s g stop) m cs (s', g', stop') m' cs') :
    (PlainDone flow m.column cs ∧ s' = s ∧ g' = g ∧ cs' = cs) ∨
    (¬ PlainDone flow m.column cs ∧ ∃ v, Plain flow indent m.column cs v cs' g'.blanks ∧ s' = joinGap s g ++ v) := by
  induction n generalizing m cs s g stop with
  | zero => cases h
  | succ n ih =>
    rcases plainBody_says h with ⟨h1, h2, rfl, rfl⟩ | ⟨hd, h0, h1⟩
    · cases h2
      exact .inl ⟨by rcases h1 with h | h; exact .inl h; exact .inr (.inl h), rfl, rfl, rfl⟩
    · clear h
      -- behind a character of the scalar
      have inner : ∀ f1 {m : Mark} {cs s : Text} {stop : Mark}, Yields (plainChars start flow f1 s {} stop >>= plainRest f start flow indent n) m cs (s', g', stop') m' cs' →
          ∃ v, Plain flow indent m.column cs v cs' g'.blanks ∧ s' = s ++ v := by
        intro f1 m cs s stop h2
        induction f1 generalizing m cs s stop with
        | zero => rw [y_bind] at h2; obtain ⟨_, _, _, h2, _⟩ := h2; cases h2
        | succ f1 ih1 =>
          rw [y_bind] at h2
          obtain ⟨p, m1, cs1, h2, h3⟩ := h2
          rw [y_plainChars] at h2
          rcases h2 with ⟨hs, rfl, rfl, rfl⟩ | ⟨hc, c, r, rfl, h2⟩
          · unfold plainRest at h3
            simp only [y_bind, y_ite, y_peek0, y_pure, y_cache1, y_get] at h3
            obtain ⟨c, _, _, ⟨r, rfl, rfl, rfl⟩, ⟨hc, _, _, _, ⟨rfl, rfl⟩, g1, _, cs2, h3, _, m2, _, ⟨rfl, rfl, rfl⟩, h4⟩ | ⟨hc, h3, rfl, rfl⟩⟩ := h3
            · have hc : Blank c ∨ Brk c := by simpa [blank_iff, brk_iff] using hc
              obtain ⟨w, k1, k2⟩ := space_sound h3 ⟨c, r, rfl, hc⟩
              rcases h4 with ⟨hi, h4, rfl, rfl⟩ | ⟨hi, h4⟩
              · cases h4
                have hi : flow = false ∧ (m'.column : Int) < indent := by simpa using hi
                exact ⟨[], .over k1 (.inl hi), by simp⟩
              · have hi : ¬ (flow = false ∧ (m2.column : Int) < indent) := by simpa using hi
                have hst := k1.stops
                rcases ih (.inr ⟨_, _, hst.choose_spec.choose_spec.1, hst.choose_spec.choose_spec.2⟩) h4 with ⟨k3, rfl, rfl, rfl⟩ | ⟨k3, v, k4, rfl⟩
                · exact ⟨[], .over k1 (.inr k3), by simp⟩
                · refine ⟨w ++ v, .white k1 ?_ k4, by rw [k2]; simp⟩
                  rintro (h | h)
                  · exact hi h
                  · exact k3 h
            · cases h3
              have hc : ¬ Blank c ∧ ¬ Brk c := by simpa [blank_iff, brk_iff, ← Bool.not_eq_true] using hc
              refine ⟨[], .stop _ _ ?_, by simp⟩
              rcases hs with ⟨_, _, e, hw⟩ | hs
              · cases e
                rcases hw with h | h | rfl
                · exact absurd h hc.1
                · exact absurd h hc.2
                · exact .inl ⟨_, rfl⟩
              · exact hs
          · rw [joinGap_none] at h2
            obtain ⟨v, k1, rfl⟩ := ih1 (y_bind.mpr ⟨p, m1, cs1, h2, h3⟩)
            exact ⟨c :: v, .char hc k1, by simp⟩
      by_cases hh : Heads (fun c => ¬ Blank c ∧ ¬ Brk c) cs
      rotate_left
      · obtain rfl : g = {} := by rcases hg with h | h; exact h; exact absurd h hh
        obtain ⟨v, k1, rfl⟩ := inner f h1
        by_cases hs : PlainStops flow cs
        · exact absurd (plainStops_head hs) hh
        · exact .inr ⟨by rintro (h | h | h); exact hd h; exact h0 h; exact hs h, v, k1, by rw [joinGap_none]⟩
      · cases f with
        | zero => rw [y_bind] at h1; obtain ⟨_, _, _, h2, _⟩ := h1; cases h2
        | succ f1 =>
          rw [y_bind] at h1
          obtain ⟨p, m1, cs1, h1, h3⟩ := h1
          rw [y_plainChars] at h1
          rcases h1 with ⟨hs, rfl, rfl, rfl⟩ | ⟨hc, c, r, rfl, h2⟩
          · obtain ⟨c, r, rfl, hc⟩ := hh
            have hs : PlainStops flow (c :: r) := by
              rcases hs with ⟨_, _, e, hw⟩ | hs
              · cases e
                rcases hw with h | h | rfl
                · exact absurd h hc.1
                · exact absurd h hc.2
                · exact .inl ⟨_, rfl⟩
              · exact hs
            unfold plainRest at h3
            simp only [y_bind, y_ite, y_peek0, y_pure] at h3
            obtain ⟨_, _, _, ⟨r, e, rfl, rfl⟩, ⟨hc', _⟩ | ⟨_, h3, rfl, rfl⟩⟩ := h3
            · cases e; simp [blank_iff, brk_iff, hc] at hc'
            · cases h3
              exact .inl ⟨.inr (.inr hs), rfl, rfl, rfl⟩
          · obtain ⟨v, k1, rfl⟩ := inner f1 (y_bind.mpr ⟨p, m1, cs1, h2, h3⟩)
            exact .inr ⟨by rintro (h | h | h); exact hd h; exact h0 h; exact plainStops_not_char h hc, c :: v, .char hc k1, by simp⟩

theorem Spec.Plain.zero {flow : Bool} {indent : Int} {col : Nat} {v rest : List Nat} {line : Bool} (h : Plain flow indent col cs v rest line) (hz : 0 ∈ cs) : 0 ∈ rest := by
  induction h with
  | stop => exact hz
  | char h1 _ ih =>
    obtain ⟨_, _, e, hw, _⟩ := h1
    cases e
    exact ih (zero_append (l := [_]) (by simp; rintro rfl; exact hw white_zero) hz)
  | over h1 _ => exact h1.zero hz
  | white h1 _ _ ih => exact ih (h1.zero hz)

/-- Behind white space the first character settles the gap. -/
theorem plainChars_gap {start : Mark} {flow : Bool} {n : Nat} {s : Text} {g : Gap} {stop : Mark} {p : Text × Gap × Mark} (h1 : ¬ PlainStops flow cs) (h2 : ¬ Heads White cs)
    (h : Yields (plainChars start flow n (joinGap s g) {} stop) m cs p m' cs') : Yields (plainChars start flow n s g stop) m cs p m' cs' := by
  cases n with
  | zero => cases h
  | succ n =>
    rw [y_plainChars] at h ⊢
    rcases h with ⟨h | h, _⟩ | h
    · exact absurd h h2
    · exact absurd h h1
    · rw [joinGap_none] at h
      exact .inr h

theorem plain_complete {f f1 n : Nat} {start : Mark} {flow : Bool} {indent : Int} {s : Text} {stop : Mark} {col : Nat} {v rest : List Nat} {line : Bool}
    (h : Plain flow indent col cs v rest line) (hm : m.column = col) (hz : 0 ∈ cs) (hf : cs.length < f) (hf1 : cs.length < f1) (hn : cs.length ≤ n) :
    ∃ g' stop' m', Yields (plainChars start flow f1 s {} stop >>= plainRest f start flow indent n) m cs (s ++ v, g', stop') m' rest ∧ g'.blanks = line := by
  induction h generalizing m s stop f1 n with
  | stop col cs h =>
    cases f1 with
    | zero => omega
    | succ f1 =>
      obtain ⟨c, r, rfl, hc⟩ := plainStops_head h
      refine ⟨{}, stop, m, y_bind.mpr ⟨(s, {}, stop), m, _, y_plainChars.mpr (.inl ⟨.inr h, rfl, rfl, rfl⟩), ?_⟩, rfl⟩
      unfold plainRest
      simp only [y_bind, y_ite, y_peek0, y_pure]
      exact ⟨c, _, _, ⟨r, rfl, rfl, rfl⟩, .inr ⟨by simp [blank_iff, brk_iff, hc], by simp, rfl, rfl⟩⟩
  | @char col c cs v rest line hc _ ih =>
    cases f1 with
    | zero => omega
    | succ f1 =>
      simp at hf hf1 hn
      have hz' : 0 ∈ cs := by
        obtain ⟨_, _, e, hw, _⟩ := hc
        cases e
        exact zero_append (l := [_]) (by simp; rintro rfl; exact hw white_zero) hz
      obtain ⟨g', stop', m', h1, h2⟩ := ih (m := m.step) (s := s ++ [c]) (stop := m.step) (f1 := f1) (n := n) (by simp [hm]) hz' (by omega) (by omega) (by omega)
      rw [y_bind] at h1
      obtain ⟨p, m1, cs1, h1, h3⟩ := h1
      exact ⟨g', stop', m', y_bind.mpr ⟨p, m1, cs1, y_plainChars.mpr (.inr ⟨hc, c, cs, rfl, by rw [joinGap_none]; exact h1⟩), by simpa using h3⟩, h2⟩
  | @over col cs w rest col' line hs ho =>
    cases f1 with
    | zero => omega
    | succ f1 =>
      have hlen := hs.length
      obtain ⟨g, m1, h1, h2, h3, _⟩ := space_complete (start := start) (m := m) (n := f) hs hm hf
      obtain ⟨c, r, rfl, hc⟩ := hs.head
      have hw : White c := by rcases hc with h | h; exact .inl h; exact .inr (.inl h)
      refine ⟨g, stop, m1, y_bind.mpr ⟨(s, {}, stop), m, _, y_plainChars.mpr (.inl ⟨.inl ⟨c, r, rfl, hw⟩, rfl, rfl, rfl⟩), ?_⟩, h3⟩
      unfold plainRest
      simp only [y_bind, y_ite, y_peek0, y_pure, y_cache1, y_get, List.append_nil]
      refine ⟨c, _, _, ⟨r, rfl, rfl, rfl⟩, .inl ⟨by simpa [blank_iff, brk_iff] using hc, (), _, _, ⟨rfl, rfl⟩, g, m1, rest, h1, _, _, _, ⟨rfl, rfl, rfl⟩, ?_⟩⟩
      by_cases hi : flow = false ∧ (col' : Int) < indent
      · exact .inl ⟨by simpa [h2] using hi, rfl, rfl, rfl⟩
      · refine .inr ⟨by simpa [h2] using hi, ?_⟩
        have ho : PlainDone flow m1.column rest := by
          rcases ho with h | h
          · exact absurd h hi
          · rw [h2]; exact h
        cases n with
        | zero => omega
        | succ n =>
          by_cases hd : DocAt m1.column rest ∨ ∃ r, rest = 0x23 :: r
          · exact plainBody_over (hs.zero hz) hd
          · have hst : PlainStops flow rest := by
              rcases ho with h | h | h
              · exact absurd (.inl h) hd
              · exact absurd (.inr h) hd
              · exact h
            refine plainBody_on (hs.zero hz) (fun h => hd (.inl h)) (fun h => hd (.inr h)) ?_
            cases f with
            | zero => omega
            | succ f =>
              obtain ⟨c, r, rfl, hc⟩ := plainStops_head hst
              refine y_bind.mpr ⟨(s, g, stop), m1, _, y_plainChars.mpr (.inl ⟨.inr hst, rfl, rfl, rfl⟩), ?_⟩
              unfold plainRest
              simp only [y_bind, y_ite, y_peek0, y_pure]
              exact ⟨c, _, _, ⟨r, rfl, rfl, rfl⟩, .inr ⟨by simp [blank_iff, brk_iff, hc], trivial, rfl, rfl⟩⟩
  | @white col cs w cs' col' line v rest line' hs ho hp ih =>
    cases f1 with
    | zero => omega
    | succ f1 =>
      have hlen := hs.length
      obtain ⟨g, m1, h1, h2, _, h3⟩ := space_complete (start := start) (m := m) (n := f) hs hm hf
      cases n with
      | zero => omega
      | succ n =>
        obtain ⟨g', stop', m', k1, k2⟩ := ih (m := m1) (s := joinGap s g) (stop := stop) (f1 := f) (n := n) h2 (hs.zero hz) (by omega) (by omega) (by omega)
        obtain ⟨c, r, rfl, hc⟩ := hs.head
        have hw : White c := by rcases hc with h | h; exact .inl h; exact .inr (.inl h)
        refine ⟨g', stop', m', y_bind.mpr ⟨(s, {}, stop), m, _, y_plainChars.mpr (.inl ⟨.inl ⟨c, r, rfl, hw⟩, rfl, rfl, rfl⟩), ?_⟩, k2⟩
        unfold plainRest
        simp only [y_bind, y_ite, y_peek0, y_pure, y_cache1, y_get]
        refine ⟨c, _, _, ⟨r, rfl, rfl, rfl⟩, .inl ⟨by simpa [blank_iff, brk_iff] using hc, (), _, _, ⟨rfl, rfl⟩, g, m1, cs', h1, _, _, _, ⟨rfl, rfl, rfl⟩, ?_⟩⟩
        refine .inr ⟨fun hi => ho (.inl (by simpa [h2] using hi)), ?_⟩
        refine plainBody_on (hs.zero hz) (fun h => ho (.inr (.inl (h2 ▸ h)))) (fun h => ho (.inr (.inr (.inl h)))) ?_
        rw [y_bind] at k1 ⊢
        obtain ⟨p, m2, cs2, k1, k3⟩ := k1
        refine ⟨p, m2, cs2, plainChars_gap (fun h => ho (.inr (.inr (.inr h)))) ?_ k1, by rw [h3] at k3; simpa using k3⟩
        rintro ⟨d, r', rfl, hd⟩
        obtain ⟨_, _, e, hb⟩ := hs.stops
        cases e
        rcases hd with h | h | rfl
        · exact hb.1 h
        · exact hb.2 h
        · exact ho (.inr (.inr (.inr (.inl ⟨_, rfl⟩))))

theorem scanPlainScalar_sound {f : Nat} {parent : Int} {flow : Bool} {t : Token} {line : Bool} (hd : ¬ DocAt m.column cs) (hc : ¬ ∃ r, cs = 0x23 :: r)
    (h : Yields (scanPlainScalar f parent flow) m cs (t, line) m' cs') :
    t.start = m ∧ ∃ v, Plain flow (parent + 1) m.column cs v cs' line ∧ t.data = .scalar v .plain := by
  unfold scanPlainScalar at h
  simp only [y_bind, y_get, y_pure] at h
  obtain ⟨_, _, _, ⟨rfl, rfl, rfl⟩, ⟨s, g, stop⟩, _, _, h, h', rfl, rfl⟩ := h
  cases h'
  refine ⟨rfl, ?_⟩
  rcases plainBody_sound (.inl rfl) h with ⟨h1, rfl, rfl, rfl⟩ | ⟨_, v, h1, rfl⟩
  · refine ⟨[], .stop _ _ ?_, rfl⟩
    rcases h1 with h | h | h
    · exact absurd h hd
    · exact absurd h hc
    · exact h
  · exact ⟨_, h1, by simp⟩

/-- A plain scalar: the scanner reads it according to the rules. -/
theorem scanPlainScalar_iff {f : Nat} {parent : Int} {flow : Bool} {t : TokData} {line : Bool} (hz : 0 ∈ cs) (hf : cs.length < f) (hd : ¬ DocAt m.column cs)
    (hc : ¬ ∃ r, cs = 0x23 :: r) :
    (∃ a b m', Yields (scanPlainScalar f parent flow) m cs ({ data := t, start := a, stop := b }, line) m' cs') ↔
    ∃ v, Plain flow (parent + 1) m.column cs v cs' line ∧ t = .scalar v .plain := by
  constructor
  · rintro ⟨a, b, m', h⟩
    exact (scanPlainScalar_sound hd hc h).2
  · unfold scanPlainScalar
    simp only [y_bind, y_get, y_pure]
    rintro ⟨v, h, rfl⟩
    cases f with
    | zero => omega
    | succ n =>
      obtain ⟨g, stop, m', h1, h2⟩ := plain_complete (f := n + 1) (f1 := n + 1) (n := n) (start := m) (s := []) (m := m) (stop := m) h rfl hz hf hf (by omega)
      exact ⟨m, stop, m', _, _, _, ⟨rfl, rfl, rfl⟩, _, _, _, plainBody_on hz hd hc h1, by simp [h2], rfl, rfl⟩

end LibYaml
