import Verif.Proofs.PositionsRun
import Verif.Props.Pipeline

/-!
# C74: positions of events

`Spec/Positions.lean` says where each event lies, by the tokens it takes; C24 says where the tokens lie in the text.
-/

namespace LibYaml

open Spec

variable {σ : Type}

/-- **C74.** Take any token source, any number of calls of `yaml_parser_parse`. The events delivered divide the tokens taken
from the source among them, in order, and every event lies where `Spec/Positions.lean` says: on its own tokens, and if it
has none, at the start of the next token or at the end of the indicator before it. -/
theorem C74_events_lie_on_their_tokens (S : TokSrc σ) (n : Int) (fuel k : Nat) (x : σ) {os : List POut} {p : Parser σ}
    (h : parseN S n fuel k (Parser.init x) = .ok (os, p)) :
    ∃ ts, Feeds S x ts p.st.src ∧ Laid [] .plain ts (delivered os) := by
  have hi : PosInv [] .plain (Parser.init x).st := ⟨rfl, by simp [Parser.init], rfl⟩
  obtain ⟨ts, h1, h2, _, _⟩ := laid_run hi h
  exact ⟨ts, h1, by simpa [Parser.init] using h2⟩

/-- **C74.** For every byte string: the events lie on the tokens of the scanner as said above; no event ends before it
starts, or starts before the one before it has ended; and all their marks are positions in the decoded text (the index is
the number of characters before it, line and column count from there, never between CR and LF), or the end of the text,
moved to a new line. -/
theorem C74_positions (o : Oracle) (n : Int) (fuel : Nat) (enc : Option Enc) (bytes : List UInt8) (hsize : bytes.length < maxFileSize)
    (f : Nat) (hf : bytes.length + 3 < f) (k : Nat) (good : List Nat) (tail : List UInt8)
    (hs : Split (chosen enc bytes).1 (chosen enc bytes).2 good tail) {os : List POut} {p : Parser (Scanner × RS)}
    (h : parseBytes o n f fuel enc bytes k = .ok (os, p)) :
    ∃ ts, (scanRun o f (scanStart enc bytes) ts.length).1 = ts.map .token ∧ Laid [] .plain ts (delivered os) ∧
      InLine (delivered os) ∧
      ∀ e ∈ delivered os, ∀ m, m = e.start ∨ m = e.stop → IsPos good m ∨ (tail = [] ∧ m = endMark good) := by
  have hi : PosInv [] .plain (parserStart enc bytes).st := ⟨rfl, by simp [parserStart, Parser.init], rfl⟩
  obtain ⟨ts, h1, h2, h3, _⟩ := laid_run hi h
  have h2 : Laid [] .plain ts (delivered os) := by simpa [parserStart, Parser.init] using h2
  have h3 : EndsLast ts := by simpa [parserStart, Parser.init] using h3
  obtain ⟨D, E, rfl, k1, k2, k3⟩ := C56_tokens_are_those_of_the_scanner o enc bytes hsize hf h1
  have hE : E = [] := by
    cases E with
    | nil => rfl
    | cons u E =>
      obtain ⟨body, t, hD, _, ht⟩ := k3 (by simp)
      have := h3 body t (u :: E) (by rw [hD]; simp) ht
      cases this
  subst hE
  rw [List.append_nil] at h2 h3
  obtain ⟨D', rest, hD', hrest, hord, hpos⟩ := C24_positions_exact o enc bytes hsize f hf D.length good tail hs
  have hDD : D' = D := by
    rw [k1] at hD'
    have : ∀ (A B : List Token) (r : List ScanOut), A.map ScanOut.token = B.map ScanOut.token ++ r → (∀ x ∈ r, ∀ t, x ≠ .token t) → B = A := by
      intro A
      induction A with
      | nil =>
        intro B r hab _
        cases B with
        | nil => rfl
        | cons b B => simp at hab
      | cons a A ih =>
        intro B r hab hr
        cases B with
        | nil => exact absurd rfl (hr (.token a) (by simp at hab; rw [← hab]; simp) a)
        | cons b B =>
          simp only [List.map_cons, List.cons_append, List.cons.injEq, ScanOut.token.injEq] at hab
          rw [hab.1, ih B r hab.2 hr]
    exact this D D' rest hD' hrest
  subst hDD
  have htidy : TidyToks D' := by
    refine ⟨fun t ht => ?_, hord⟩
    rcases hpos t ht with h | h
    · exact h.2.2
    · rw [h.2.2.1, h.2.2.2]; exact Nat.le_refl _
  refine ⟨D', k1, h2, (laid_inLine h2 htidy).1, ?_⟩
  intro e he m hm
  have hmk : MarkOf D' m := by
    obtain ⟨a, b⟩ := laid_marks h2 e he
    rcases hm with rfl | rfl
    · exact a
    · exact b
  obtain ⟨t, ht, hmt⟩ := hmk
  rcases hpos t ht with h | h
  · rcases hmt with rfl | rfl
    · exact .inl h.1
    · exact .inl h.2.1
  · rcases hmt with rfl | rfl
    · exact .inr ⟨h.1, h.2.2.1⟩
    · exact .inr ⟨h.1, h.2.2.2⟩

/-! ### Examples -/

/-- Start and end of each event. -/
def spans (os : List POut) : List (Nat × Nat) := (delivered os).map fun e => (e.start.index, e.stop.index)

/-- `a: [&x b, ]` and a line with `c:`. -/
def spanBytes : List UInt8 := [97, 58, 32, 91, 38, 120, 32, 98, 44, 32, 93, 10, 99, 58]

/-- The collection starts at its bracket and its end is the closing one, the scalar with an anchor starts at the anchor, the
missing value of `c` lies after the colon. -/
example : (parseBytes (fun _ => some 3) 1000 40 40 none spanBytes 16).toOption.map (fun r => spans r.1) =
    some [(0, 0), (0, 0), (0, 0), (0, 1), (3, 4), (4, 8), (10, 11), (12, 13), (14, 14), (14, 14), (14, 14), (14, 14)] := by
  decide +kernel

/-- A list of tokens on which the events do not lie where the rules say: the scalar `b` of `- b` cannot begin at the dash. -/
example : ¬ ∃ st', Placed [(false, .block)] .plain [⟨.blockEntry, ⟨0, 0, 0⟩, ⟨1, 0, 1⟩⟩, ⟨.scalar [98] .plain, ⟨2, 0, 2⟩, ⟨3, 0, 3⟩⟩]
    none ⟨.scalar none none [98] true false .plain, ⟨0, 0, 0⟩, ⟨3, 0, 3⟩⟩ st' := by
  rintro ⟨st', h⟩
  obtain ⟨f, hm, hs, hd⟩ : ∃ f ∈ [(⟨.blockEntry, ⟨0, 0, 0⟩, ⟨1, 0, 1⟩⟩ : Token), ⟨.scalar [98] .plain, ⟨2, 0, 2⟩, ⟨3, 0, 3⟩⟩],
      f.start = ⟨0, 0, 0⟩ ∧ ¬ CanOpen f := by
    cases placed_spot (R := []) h rfl with
    | own g own f l hT hf hl hno h1 h2 h3 => exact ⟨f, by rw [hT]; simp [head_mem hf], h1.symm, hno⟩
    | opens g ps f t R' hT hR hf hno h1 h2 h3 => cases hR
    | next t R' hR h1 h2 h3 => cases hR
    | after g t hT h1 h2 h3 =>
      have : (⟨0, 0, 0⟩ : Mark) = ⟨3, 0, 3⟩ := h1.trans h2.symm
      cases this
    | before t hT hno h1 h2 h3 => cases hT
  simp at hm
  rcases hm with rfl | rfl
  · exact hd (.inr rfl)
  · cases hs

end LibYaml
