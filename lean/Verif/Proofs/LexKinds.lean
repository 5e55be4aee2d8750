import Verif.Model.Scanner
import Verif.Proofs.LexBlock
import Verif.Proofs.LexPlain
import Verif.Proofs.LexTags
import Verif.Spec.Layout

/-!
# What the next token is

The case analysis at the beginning of a token, and the positions of the tokens that the lexers give.
-/

namespace LibYaml

open Spec

variable {m m' : Mark} {cs cs' : Text} {s s' : Scanner} {u : Unit}

theorem y_act {g : Scanner → Except Fail Scanner} : Yields (act g) s cs u s' cs' ↔ g s = .ok s' ∧ cs' = cs := by
  unfold Yields act
  cases h : g s with
  | error e =>
    constructor
    · intro h; cases h
    · rintro ⟨h, _⟩; cases h
  | ok s1 =>
    constructor
    · intro h; cases h; exact ⟨rfl, rfl⟩
    · rintro ⟨h, rfl⟩; cases h; rfl

theorem y_lex {α : Type} {x : Lex α} {a : α} : Yields (lex x) s cs a s' cs' ↔ ∃ m', Yields x s.mark cs a m' cs' ∧ s' = { s with mark := m' } := by
  unfold Yields lex
  rw [go_bind]
  cases h : (x s.mark).go cs with
  | error e =>
    constructor
    · intro h; cases h
    · rintro ⟨_, h, _⟩; cases h
  | ok p =>
    obtain ⟨⟨b, m1⟩, cs1⟩ := p
    constructor
    · intro h; cases h; exact ⟨m1, rfl, rfl⟩
    · rintro ⟨m', h, rfl⟩; cases h; rfl

theorem y_fetchIndicator {n : Nat} {d : TokData} : Yields (fetchIndicator n d) s cs u s' cs' ↔
    ∃ l, cs = l ++ cs' ∧ l.length = n ∧
      s' = { s with mark := s.mark.steps n, tokens := s.tokens ++ [{ data := d, start := s.mark, stop := s.mark.steps n }] } := by
  unfold fetchIndicator
  simp only [y_bind, y_get, y_lex, y_skipN, y_act, Scanner.enqueue, Except.ok.injEq]
  constructor
  · rintro ⟨_, _, _, ⟨rfl, rfl, rfl⟩, _, _, cs1, ⟨_, ⟨l, h1, h2, rfl⟩, rfl⟩, _, _, _, ⟨rfl, rfl, rfl⟩, rfl, rfl⟩
    exact ⟨l, h1, h2, rfl⟩
  · rintro ⟨l, h1, h2, rfl⟩
    exact ⟨_, _, _, ⟨rfl, rfl, rfl⟩, (), _, _, ⟨_, ⟨l, h1, h2, rfl⟩, rfl⟩, _, _, _, ⟨rfl, rfl, rfl⟩, rfl, rfl⟩

/-! ### Dispatch -/

/-- The characters of the token of this kind. -/
def KindIs (flow : Bool) (col : Nat) (cs : Text) : Kind → Prop
  | .streamEnd => ∃ r, cs = 0 :: r
  | .directive => col = 0 ∧ ∃ r, cs = 0x25 :: r
  | .documentStart => col = 0 ∧ ∃ d r, White d ∧ cs = 0x2D :: 0x2D :: 0x2D :: d :: r
  | .documentEnd => col = 0 ∧ ∃ d r, White d ∧ cs = 0x2E :: 0x2E :: 0x2E :: d :: r
  | .flowStart d => (d = .flowSequenceStart ∧ ∃ r, cs = 0x5B :: r) ∨ (d = .flowMappingStart ∧ ∃ r, cs = 0x7B :: r)
  | .flowEnd d => (d = .flowSequenceEnd ∧ ∃ r, cs = 0x5D :: r) ∨ (d = .flowMappingEnd ∧ ∃ r, cs = 0x7D :: r)
  | .flowEntry => ∃ r, cs = 0x2C :: r
  | .blockEntry => ∃ r, cs = 0x2D :: r ∧ Heads White r
  | .key => ∃ r, cs = 0x3F :: r ∧ (flow = true ∨ Heads White r)
  | .value => ∃ r, cs = 0x3A :: r ∧ (flow = true ∨ Heads White r)
  | .anchor a => ∃ r, cs = (if a = true then 0x26 else 0x2A) :: r
  | .tag => ∃ r, cs = 0x21 :: r
  | .block l => flow = false ∧ ∃ r, cs = (if l = true then 0x7C else 0x3E) :: r
  | .quoted q => ∃ r, cs = (if q = true then 0x27 else 0x22) :: r
  | .plain => PlainFirst flow cs ∧ ¬ DocAt col cs
  | .unknown => True

theorem indicator_iff {c : Nat} : isIndicator c = false ↔ ¬ White c ∧
    c ∉ [0x2D, 0x3F, 0x3A, 0x2C, 0x5B, 0x5D, 0x7B, 0x7D, 0x23, 0x26, 0x2A, 0x21, 0x7C, 0x3E, 0x27, 0x22, 0x25, 0x40, 0x60] := by
  have hw := white_iff (c := c)
  unfold isIndicator
  simp only [Bool.or_eq_false_iff, beq_eq_false_iff_ne, ne_eq, List.mem_cons, List.not_mem_nil, or_false, not_or]
  rw [← Bool.not_eq_true, hw]
  simp only [and_assoc]

theorem dispatchChar_sound {flow : Bool} {c : Nat} {r : Text} {k : Kind} (hd : ¬ DocAt m.column (c :: r))
    (h : Yields (dispatchChar flow c) m (c :: r) k m' cs') : m' = m ∧ cs' = c :: r ∧ KindIs flow m.column (c :: r) k := by
  unfold dispatchChar at h
  simp only [y_ite, y_pure, y_bind, y_peek1] at h
  have nw : ∀ {d : Nat}, ¬ isBlankz d = true ↔ ¬ White d := fun {d} => by rw [white_iff]
  rcases h with ⟨rfl, rfl, rfl, rfl⟩ | ⟨_, h⟩
  · exact ⟨rfl, rfl, .inl ⟨rfl, _, rfl⟩⟩
  rcases h with ⟨rfl, rfl, rfl, rfl⟩ | ⟨_, h⟩
  · exact ⟨rfl, rfl, .inr ⟨rfl, _, rfl⟩⟩
  rcases h with ⟨rfl, rfl, rfl, rfl⟩ | ⟨_, h⟩
  · exact ⟨rfl, rfl, .inl ⟨rfl, _, rfl⟩⟩
  rcases h with ⟨rfl, rfl, rfl, rfl⟩ | ⟨_, h⟩
  · exact ⟨rfl, rfl, .inr ⟨rfl, _, rfl⟩⟩
  rcases h with ⟨rfl, rfl, rfl, rfl⟩ | ⟨_, h⟩
  · exact ⟨rfl, rfl, _, rfl⟩
  rcases h with ⟨rfl, d, _, _, ⟨_, r', e, _, rfl, rfl⟩, rfl, rfl, rfl⟩ | ⟨_, h⟩
  · cases e
    refine ⟨rfl, rfl, ?_⟩
    split
    · rename_i hw
      exact ⟨_, rfl, d, r', rfl, white_iff.mp hw⟩
    · rename_i hw
      exact ⟨⟨_, _, rfl, .inr ⟨.inl rfl, d, r', rfl, nw.mp hw⟩⟩, hd⟩
  rcases h with ⟨rfl, h⟩ | ⟨_, h⟩
  · rcases h with ⟨hfl, rfl, rfl, rfl⟩ | ⟨hfl, d, _, _, ⟨_, r', e, _, rfl, rfl⟩, rfl, rfl, rfl⟩
    · exact ⟨rfl, rfl, _, rfl, .inl hfl⟩
    · cases e
      refine ⟨rfl, rfl, ?_⟩
      split
      · rename_i hw
        exact ⟨_, rfl, .inr ⟨d, r', rfl, white_iff.mp hw⟩⟩
      · rename_i hw
        exact ⟨⟨_, _, rfl, .inr ⟨.inr ⟨by simpa using hfl, .inl rfl⟩, d, r', rfl, nw.mp hw⟩⟩, hd⟩
  rcases h with ⟨rfl, h⟩ | ⟨_, h⟩
  · rcases h with ⟨hfl, rfl, rfl, rfl⟩ | ⟨hfl, d, _, _, ⟨_, r', e, _, rfl, rfl⟩, rfl, rfl, rfl⟩
    · exact ⟨rfl, rfl, _, rfl, .inl hfl⟩
    · cases e
      refine ⟨rfl, rfl, ?_⟩
      split
      · rename_i hw
        exact ⟨_, rfl, .inr ⟨d, r', rfl, white_iff.mp hw⟩⟩
      · rename_i hw
        exact ⟨⟨_, _, rfl, .inr ⟨.inr ⟨by simpa using hfl, .inr rfl⟩, d, r', rfl, nw.mp hw⟩⟩, hd⟩
  rcases h with ⟨rfl, rfl, rfl, rfl⟩ | ⟨_, h⟩
  · exact ⟨rfl, rfl, _, rfl⟩
  rcases h with ⟨rfl, rfl, rfl, rfl⟩ | ⟨_, h⟩
  · exact ⟨rfl, rfl, _, rfl⟩
  rcases h with ⟨rfl, rfl, rfl, rfl⟩ | ⟨_, h⟩
  · exact ⟨rfl, rfl, _, rfl⟩
  rcases h with ⟨⟨rfl, hfl⟩, rfl, rfl, rfl⟩ | ⟨_, h⟩
  · exact ⟨rfl, rfl, hfl, _, rfl⟩
  rcases h with ⟨⟨rfl, hfl⟩, rfl, rfl, rfl⟩ | ⟨_, h⟩
  · exact ⟨rfl, rfl, hfl, _, rfl⟩
  rcases h with ⟨rfl, rfl, rfl, rfl⟩ | ⟨_, h⟩
  · exact ⟨rfl, rfl, _, rfl⟩
  rcases h with ⟨rfl, rfl, rfl, rfl⟩ | ⟨_, h⟩
  · exact ⟨rfl, rfl, _, rfl⟩
  obtain ⟨rfl, rfl, rfl⟩ := h
  refine ⟨rfl, rfl, ?_⟩
  split
  · trivial
  · rename_i hi
    exact ⟨⟨c, r, rfl, .inl (indicator_iff.mp (by simpa using hi))⟩, hd⟩

theorem dispatch_sound {flow : Bool} {k : Kind} (h : Yields (dispatch flow) m cs k m' cs') : m' = m ∧ cs' = cs ∧ KindIs flow m.column cs k := by
  unfold dispatch at h
  simp only [y_bind, y_get, y_peek0, y_ite, y_pure] at h
  obtain ⟨c, _, _, ⟨r, rfl, rfl, rfl⟩, _, _, _, ⟨rfl, rfl, rfl⟩, h⟩ := h
  rcases h with ⟨hz, rfl, rfl, rfl⟩ | ⟨_, h⟩
  · have : c = 0 := by simpa [isZ] using hz
    subst this
    exact ⟨rfl, rfl, _, rfl⟩
  rcases h with ⟨⟨h0, rfl⟩, rfl, rfl, rfl⟩ | ⟨_, b1, _, _, h1, h⟩
  · exact ⟨rfl, rfl, h0, _, rfl⟩
  obtain ⟨rfl, rfl, k1⟩ := y_docMark (by decide) h1
  rcases h with ⟨hb, rfl, rfl, rfl⟩ | ⟨hb1, b2, _, _, h2, h⟩
  · exact ⟨rfl, rfl, k1.mp hb⟩
  obtain ⟨rfl, rfl, k2⟩ := y_docMark (by decide) h2
  rcases h with ⟨hb, rfl, rfl, rfl⟩ | ⟨hb2, h⟩
  · exact ⟨rfl, rfl, k2.mp hb⟩
  refine dispatchChar_sound ?_ h
  rintro ⟨h0, d, r', hw, e | e⟩
  · exact hb1 (k1.mpr ⟨h0, d, r', hw, e⟩)
  · exact hb2 (k2.mpr ⟨h0, d, r', hw, e⟩)

/-! ### Positions of tokens -/

theorem scanAnchor_marks {f : Nat} {anchor : Bool} {t : Token} (h : Yields (scanAnchor f anchor) m cs t m' cs') : t.start = m ∧ t.stop = m' := by
  unfold scanAnchor at h
  simp only [y_bind, y_get, y_skipC, y_cache1, y_peek0, y_ite, y_pure, y_err, and_false, or_false] at h
  obtain ⟨_, _, _, ⟨rfl, rfl, rfl⟩, _, _, _, ⟨_, _, rfl⟩, _, _, _, ⟨rfl, rfl⟩, s, m1, cs1, h, _, _, _, ⟨rfl, rfl, rfl⟩, c, _, _, ⟨r, rfl, rfl, rfl⟩, _, rfl, rfl, rfl⟩ := h
  exact ⟨rfl, rfl⟩

theorem scanDirective_start {f : Nat} {t : Token} (h : Yields (scanDirective f) m cs t m' cs') : t.start = m := by
  unfold scanDirective at h
  simp only [y_bind, y_get, y_skipC, y_ite, y_err, and_false, or_false, y_pure] at h
  obtain ⟨_, _, _, ⟨rfl, rfl, rfl⟩, _, _, _, _, name, _, cs1, _, h⟩ := h
  rcases h with ⟨_, ⟨j, k⟩, _, _, h1, _, _, cs2, ⟨rfl, rfl, rfl⟩, _, _, _, h2, rfl, rfl, rfl⟩ | ⟨_, _, ⟨hd, p⟩, _, _, h1, _, _, cs2, ⟨rfl, rfl, rfl⟩, _, _, _, h2, rfl, rfl, rfl⟩ <;> rfl

theorem scanBlockScalar_start {f : Nat} {parent : Int} {literal : Bool} {t : Token} (h : Yields (scanBlockScalar f parent literal) m cs t m' cs') : t.start = m := by
  unfold scanBlockScalar at h
  simp only [y_bind, y_get, y_skipC, y_cache1, y_pure] at h
  obtain ⟨_, _, _, ⟨rfl, rfl, rfl⟩, _, _, _, ⟨_, e, rfl⟩, ⟨x, n⟩, m1, cs1, h1, _, m2, cs2, h2, ⟨i, brs, st⟩, m3, cs3, h3, _, _, _, ⟨rfl, rfl⟩, ⟨s, lead, trail, st2⟩, _, _, h4, rfl, rfl, rfl⟩ := h
  rfl

end LibYaml
