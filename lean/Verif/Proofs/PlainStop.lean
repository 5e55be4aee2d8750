import Verif.Proofs.LexPlain
import Verif.Proofs.Tracks
import Verif.Proofs.Suffix

/-!
# The end of a plain scalar

The token of a plain scalar ends behind its last character that is not white space.
-/

namespace LibYaml

open Spec

variable {m m' : Mark} {cs cs' : Text}

/-- Of the text `cs0` from `m0` the part in front of `cs` is consumed; the last character that is not white space is in front of `stop`. -/
structure Trims (cs0 : Text) (m0 : Mark) (cs : Text) (m stop : Mark) : Prop where
  ex : ∃ a b, cs0 = a ++ (b ++ cs) ∧ (∀ x ∈ b, Blank x ∨ Brk x) ∧ (a = [] ∨ ∃ a' c, a = a' ++ [c] ∧ ¬ White c) ∧ stop.index = m0.index + a.length ∧
    m.index = m0.index + (a.length + b.length)

variable {cs0 : Text} {m0 stop : Mark}

theorem Trims.char {c : Nat} (h : Trims cs0 m0 (c :: cs) m stop) (hc : ¬ White c) : Trims cs0 m0 cs m.step m.step := by
  obtain ⟨a, b, rfl, hb, ha, h1, h2⟩ := h.ex
  exact ⟨a ++ (b ++ [c]), [], by simp, by simp, .inr ⟨a ++ b, c, by simp, hc⟩, by simp; omega, by simp; omega⟩

theorem Trims.white {w : Text} (h : Trims cs0 m0 (w ++ cs) m stop) (hw : ∀ x ∈ w, Blank x ∨ Brk x) (hm : m'.index = m.index + w.length) :
    Trims cs0 m0 cs m' stop := by
  obtain ⟨a, b, rfl, hb, ha, h1, h2⟩ := h.ex
  refine ⟨a, b ++ w, by simp, ?_, ha, h1, by simp; omega⟩
  intro x hx
  rw [List.mem_append] at hx
  rcases hx with h | h
  · exact hb x h
  · exact hw x h

theorem break_white {b : Nat} (h : BreakAt cs b cs') : ∃ w, cs = w ++ cs' ∧ ∀ x ∈ w, Blank x ∨ Brk x := by
  cases h
  · exact ⟨[_, _], rfl, by simp [Brk]⟩
  all_goals exact ⟨[_], rfl, by simp [Brk]⟩

theorem plainBlanks_white {start : Mark} {indent : Int} {n : Nat} {g g' : Gap} (h : Yields (plainBlanks start indent n g) m cs g' m' cs') :
    ∃ w, cs = w ++ cs' ∧ (∀ x ∈ w, Blank x ∨ Brk x) ∧ m'.index = m.index + w.length := by
  induction n generalizing m cs g with
  | zero => cases h
  | succ n ih =>
    have line : ∀ {s t : Text} {m1 : Mark} {cs1 : Text} {g : Gap}, Yields (readLine s) m cs t m1 cs1 → Yields (plainBlanks start indent n g) m1 cs1 g' m' cs' →
        ∃ w, cs = w ++ cs' ∧ (∀ x ∈ w, Blank x ∨ Brk x) ∧ m'.index = m.index + w.length := by
      intro s t m1 cs1 g h1 h2
      obtain ⟨w, rfl, h3, h4⟩ := ih h2
      rw [y_readLine] at h1
      rcases h1 with ⟨b, hb, rfl, rfl⟩ | ⟨_, _, rfl, e⟩
      · obtain ⟨w', rfl, h5⟩ := break_white hb
        refine ⟨w' ++ w, by simp, ?_, ?_⟩
        · intro x hx
          rw [List.mem_append] at hx
          rcases hx with h | h
          · exact h5 x h
          · exact h3 x h
        · simp at h4 ⊢; omega
      · exact ⟨w, e.symm, h3, h4⟩
    have char : ∀ {c : Nat} {cs1 : Text} {g : Gap}, cs = c :: cs1 → Blank c → Yields (plainBlanks start indent n g) m.step cs1 g' m' cs' →
        ∃ w, cs = w ++ cs' ∧ (∀ x ∈ w, Blank x ∨ Brk x) ∧ m'.index = m.index + w.length := by
      rintro c cs1 g rfl hc h2
      obtain ⟨w, rfl, h3, h4⟩ := ih h2
      refine ⟨c :: w, rfl, ?_, by simp at h4 ⊢; omega⟩
      intro x hx
      rw [List.mem_cons] at hx
      rcases hx with rfl | h
      · exact .inl hc
      · exact h3 x h
    rw [plainBlanks] at h
    simp only [y_bind, y_ite, y_peek0, y_pure, y_readC, y_get, y_cache1, y_cache2, y_err, y_skipC, and_false, false_or] at h
    obtain ⟨c, _, _, ⟨r, e, rfl, rfl⟩, ⟨hc, h⟩ | ⟨_, ⟨_, _, _, _, ⟨rfl, rfl⟩, ⟨_, _, _, _, h1, _, _, _, ⟨rfl, rfl⟩, h2⟩ | ⟨_, _, _, _, h1, _, _, _, ⟨rfl, rfl⟩, h2⟩⟩ | ⟨_, _, rfl, rfl⟩⟩⟩ := h
    · rw [blank_iff] at hc
      rcases h with ⟨_, _, _, _, ⟨rfl, rfl, rfl⟩, _, _, _, _, ⟨_, e1, rfl⟩, _, _, _, ⟨rfl, rfl⟩, h⟩ | ⟨_, _, _, _, ⟨_, e1, _, rfl⟩, _, _, _, ⟨rfl, rfl⟩, h⟩
      · rw [e] at e1; cases e1
        exact char e hc h
      · rw [e] at e1; cases e1
        exact char e hc h
    · exact line h1 h2
    · exact line h1 h2
    · exact ⟨[], rfl, by simp, rfl⟩

theorem plainChars_trims {start : Mark} {flow : Bool} {n : Nat} {s : Text} {g : Gap} {p : Text × Gap × Mark} (ht : Trims cs0 m0 cs m stop)
    (h : Yields (plainChars start flow n s g stop) m cs p m' cs') : Trims cs0 m0 cs' m' p.2.2 := by
  induction n generalizing m cs s g stop with
  | zero => cases h
  | succ n ih =>
    rw [y_plainChars] at h
    rcases h with ⟨_, rfl, rfl, rfl⟩ | ⟨⟨c, r, rfl, hw, _⟩, _, _, e, h⟩
    · exact ht
    · cases e
      exact ih (ht.char hw) h

theorem plainBody_trims {f n : Nat} {start : Mark} {flow : Bool} {indent : Int} {s : Text} {g : Gap} {p : Text × Gap × Mark} (ht : Trims cs0 m0 cs m stop)
    (h : Yields (plainBody f start flow indent n s g stop) m cs p m' cs') : Trims cs0 m0 cs' m' p.2.2 := by
  induction n generalizing m cs s g stop with
  | zero => cases h
  | succ n ih =>
    rcases plainBody_says h with ⟨_, rfl, rfl, rfl⟩ | ⟨_, _, h1⟩
    · exact ht
    · rw [y_bind] at h1
      obtain ⟨⟨s1, g1, stop1⟩, m1, cs1, h1, h2⟩ := h1
      have t1 := plainChars_trims ht h1
      unfold plainRest at h2
      simp only [y_bind, y_ite, y_peek0, y_pure, y_cache1, y_get] at h2
      obtain ⟨c, _, _, ⟨r, _, rfl, rfl⟩, ⟨_, _, _, _, ⟨rfl, rfl⟩, g2, m2, cs2, h3, _, _, _, ⟨rfl, rfl, rfl⟩, h4⟩ | ⟨_, rfl, rfl, rfl⟩⟩ := h2
      · obtain ⟨w, rfl, hw, hm⟩ := plainBlanks_white h3
        have t2 := t1.white hw hm
        rcases h4 with ⟨_, rfl, rfl, rfl⟩ | ⟨_, h4⟩
        · exact t2
        · exact ih t2 h4
      · exact t1

theorem plain_moves {flow : Bool} {indent : Int} {col : Nat} {v : List Nat} {line : Bool} (h : Plain flow indent col cs v cs' line) (hc : PlainChar flow cs) :
    cs'.length < cs.length := by
  have hs : ∀ {ok w col' l r}, Space ok col cs w r col' l → False := by
    intro ok w col' l r hs
    obtain ⟨c, r, rfl, hw, _⟩ := hc
    obtain ⟨_, _, e, h⟩ := hs.head
    cases e
    rcases h with h | h
    · exact hw (.inl h)
    · exact hw (.inr (.inl h))
  cases h with
  | stop _ _ h => exact absurd hc (plainStops_not_char h)
  | char _ h =>
    have := h.suffix.length_le
    simp; omega
  | over h _ => exact (hs h).elim
  | white h _ _ => exact (hs h).elim

/-- The token of a plain scalar ends where it should. -/
theorem scanPlainScalar_stop {f : Nat} {parent : Int} {flow : Bool} {t : Token} {line : Bool} {col : Nat} {v : List Nat} {indent : Int} (hc : PlainChar flow cs)
    (hp : Plain flow indent col cs v cs' line)
    (h : Yields (scanPlainScalar f parent flow) m cs (t, line) m' cs') :
    ∃ mid, Trimmed cs mid cs' ∧ t.stop.index + mid.length = m.index + cs.length := by
  unfold scanPlainScalar at h
  simp only [y_bind, y_get, y_pure] at h
  obtain ⟨_, m, cs, ⟨rfl, rfl, rfl⟩, ⟨s, g, stop⟩, _, _, h, h', rfl, rfl⟩ := h
  cases h'
  have ht := plainBody_trims (cs0 := cs) (m0 := m) ⟨[], [], by simp, by simp, .inl rfl, by simp, by simp⟩ h
  obtain ⟨a, b, e, hb, ha, h1, _⟩ := ht.ex
  refine ⟨b ++ cs', ⟨a, b, e, rfl, hb, ?_⟩, ?_⟩
  · rcases ha with rfl | ha
    · exfalso
      obtain ⟨c, r, rfl, hw, hf, hc⟩ := hc
      cases b with
      | cons x b =>
        cases e
        rcases hb c (by simp) with h | h
        · exact hw (.inl h)
        · exact hw (.inr (.inl h))
      | nil =>
        have e : c :: r = cs' := e
        subst e
        exact absurd (plain_moves hp ⟨c, r, rfl, hw, hf, hc⟩) (Nat.lt_irrefl _)
    · exact ha
  · have := congrArg List.length e
    simp at this h1 ⊢; omega

end LibYaml
