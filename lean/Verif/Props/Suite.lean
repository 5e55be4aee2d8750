import Verif.Proofs.SuiteEvents
import Verif.Props.Reread

/-!
# C78: the notation of the test suite

The events printed by tests/run-parser-test-suite.c are read by tests/run-emitter-test-suite.c. Which lines arrive as they should
is said by `Spec/Suite.lean`; for the others there are examples, among them copies out of bounds.
-/

namespace LibYaml

open Spec

/-- **C78 (lines).** Print the event with any option and read the line with any option. The event constructor is called with the right arguments
exactly if the event is such as `ReadsBack` says and the line has less than 1022 bytes. -/
theorem C78_line (p r : FlowOpt) (e : EvData) (he : CleanEvent e) {line : List UInt8} (h : printEvent p e = some line) :
    suiteRead r 2 (line ++ [10]) = ([rightCall p r e], none) ↔ ReadsBack e ∧ line.length < 1022 := by
  have hc := printed_clean he h
  have hend : suiteRead r 1 [] = ([], none) := rfl
  rw [suiteRead, suiteLine_iff hc.2 hc.1]
  by_cases hl : line.length < 1022
  · rw [if_pos hl]
    simp only [hl, and_true]
    rw [← suiteCall_iff (r := r) he h hl, hend]
    cases hs : suiteCall r line with
    | error x => simp
    | ok c => simp
  · rw [if_neg hl]
    simp [hl]

/-- **C78 (streams).** The same for the lines of any number of events: all constructors are called with the right arguments, and nothing fails, exactly if
each event is read back and each line is short enough. -/
theorem C78_lines (p r : FlowOpt) (es : List EvData) (he : ∀ e ∈ es, CleanEvent e) {out : List UInt8} (h : printEvents p es = some out)
    (n : Nat) (hn : es.length < n) :
    suiteRead r n out = (es.map (rightCall p r), none) ↔ ∀ e ∈ es, ReadsBack e ∧ ∀ line, printEvent p e = some line → line.length < 1022 := by
  induction es generalizing out n with
  | nil =>
    cases h
    cases n with
    | zero => cases hn
    | succ n => exact iff_of_true rfl nofun
  | cons e es ih =>
    cases n with
    | zero => cases hn
    | succ n =>
      unfold printEvents at h
      cases hl : printEvent p e with
      | none => rw [hl] at h; cases h
      | some l =>
        cases hr : printEvents p es with
        | none => rw [hl, hr] at h; cases h
        | some rest =>
          rw [hl, hr] at h
          cases h
          have he0 := he e (by simp)
          have hc := printed_clean he0 hl
          have ih := ih (fun e h => he e (by simp [h])) hr n (by simpa using hn)
          rw [suiteRead, suiteLine_iff hc.2 hc.1]
          simp only [List.forall_mem_cons]
          rw [hl]
          by_cases hlen : l.length < 1022
          · rw [if_pos hlen, ← ih, ← suiteCall_iff (r := r) he0 hl hlen]
            simp only
            cases hs : suiteCall r l with
            | error x => simp
            | ok c =>
              simp only [List.map_cons, Prod.mk.injEq, List.cons.injEq, Except.ok.injEq, Option.some.injEq, forall_eq']
              rw [Prod.ext_iff]
              simp only [hlen, and_true]
              constructor
              · rintro ⟨⟨a, b⟩, c⟩; exact ⟨a, b, c⟩
              · rintro ⟨a, b, c⟩; exact ⟨⟨a, b⟩, c⟩
          · rw [if_neg hlen]
            simp [hlen]

/-! ### Events of the parser -/

/-- **C78.** For every byte string that is parsed to its end: printing the events does not abort; and if the tags are clean, what is printed is
read as it should exactly if all events are `ReadsBack` and all lines are short enough. -/
theorem C78_parsed (o : Oracle) (n : Int) (enc : Option Enc) (bytes : List UInt8) (hsize : bytes.length < maxFileSize) {f fuel k : Nat}
    (hf : bytes.length + 3 < f) {os : List POut} {q : Parser (Scanner × RS)} (h : parseBytes o n f fuel enc bytes k = .ok (os, q))
    (hend : .streamEnd ∈ events os) (p r : FlowOpt) :
    ∃ out, printEvents p (events os) = some out ∧ (CleanTags (events os) → ∀ m, (events os).length < m →
      (suiteRead r m out = ((events os).map (rightCall p r), none) ↔
        ∀ e ∈ events os, ReadsBack e ∧ ∀ line, printEvent p e = some line → line.length < 1022)) := by
  obtain ⟨toks, y, h1, h2⟩ := C56_grammar o n fuel enc bytes hsize hf k h hend
  have h3 := fed_good hsize hf h1
  have h4 : ∀ d ∈ toks.map Token.data, GoodTok d := by
    intro d hd
    obtain ⟨t, ht, rfl⟩ := List.mem_map.mp hd
    exact h3 t ht
  obtain ⟨out, ho⟩ := printEvents_some (p := p) (stream_styled h2 h4)
  refine ⟨out, ho, fun hc m hm => ?_⟩
  exact C78_lines p r _ (fun e he => good_clean (stream_good h2 h4 e he) (hc e he)) ho m hm

/-! ### Bounds of the buffers -/

/-- **C78 (bounds).** For every line that `get_line` can deliver the value fits into its buffer. The copy of an anchor runs out of bounds exactly if the bytes
from the first sign up to the next space are 256 or more; that of a tag, if those between the first `<` and the first `>` are, or the `>` comes before the `<`. -/
theorem C78_bounds (line : List UInt8) (hl : line.length < 1022) (s : UInt8) :
    suiteValue line ≠ .error .ub ∧
    (suiteAnchor s line = .error .ub ↔ ∃ x a y, line = x ++ s :: (a ++ y) ∧ s ∉ x ∧ ch ' ' ∉ a ∧ 256 ≤ a.length) ∧
    (suiteTag line = .error .ub ↔
      (∃ x t y, line = x ++ ch '<' :: (t ++ ch '>' :: y) ∧ ch '<' ∉ x ∧ ch '>' ∉ x ∧ ch '>' ∉ t ∧ 256 ≤ t.length) ∨
      ∃ x y, line = x ++ ch '>' :: y ∧ ch '<' ∉ x ∧ ch '<' ∈ y) := by
  refine ⟨?_, suiteAnchor_ub, suiteTag_ub⟩
  unfold suiteValue
  cases h : findStyle (line.drop 4) with
  | none => exact nofun
  | some w =>
    obtain ⟨s, r⟩ := w
    have h1 := length_findStyle h
    have h2 := unescape_safe r.length r [] (Nat.le_refl _) (by simp at h1; simp; omega)
    simp only
    cases hu : unescape r [] with
    | error e => rw [hu] at h2; exact fun h => h2 (by cases h; rfl)
    | ok v => exact nofun

/-- **C78 (violated).** Not all that the parser delivers is read back: the text `a&b` becomes a node with the anchor `b`, `<b>` one with the tag `b`,
and after `> <` in a text the length of a copy is negative. -/
theorem C78_violated :
    (printEvents .off [.scalar none none [0x61, 0x26, 0x62] true false .plain]).map (suiteRead .off 9) =
      some ([.scalar (some [0x62]) none [0x61, 0x26, 0x62] true .plain], none) ∧
    (printEvents .off [.scalar none none [0x3C, 0x62, 0x3E] false true .single]).map (suiteRead .off 9) =
      some ([.scalar none (some [0x62]) [0x3C, 0x62, 0x3E] false .single], none) ∧
    (printEvents .off [.scalar none none [0x3E, 0x20, 0x3C] false true .double]).map (suiteRead .off 9) = some ([], some .ub) := by
  decide +kernel

/-- The calls made for what the parser delivers for a text, without options. -/
def suiteBytes (bytes : List UInt8) : Option (List SuiteCall × Option SuiteFail) :=
  (parseBytes (fun _ => some 3) 1000 60 100 none bytes 16).toOption.bind fun r => (printEvents .off (events r.1)).map (suiteRead .off 16)

/-- **C78 (violated).** The same from the text: with `"> <"` the reading program has undefined behaviour; `a&b` is given an anchor. -/
theorem C78_violated_by_texts :
    suiteBytes [0x22, 0x3E, 0x20, 0x3C, 0x22] = some ([.streamStart, .documentStart true], some .ub) ∧
    suiteBytes [0x61, 0x26, 0x62] = some ([.streamStart, .documentStart true, .scalar (some [0x62]) none [0x61, 0x26, 0x62] true .plain,
      .documentEnd true, .streamEnd], none) := by
  decide +kernel

/-! ### Examples -/

/-- A stream that is read back: a sequence in brackets with an anchor, a tag, and a value with a line break. -/
def suiteExample : List EvData :=
  [.streamStart none, .documentStart none [] false, .sequenceStart (some [0x61]) none true .flow,
    .scalar none (some [0x21, 0x78]) [0x62, 0x0A, 0x63] false false .double, .alias [0x61], .sequenceEnd, .documentEnd true, .streamEnd]

example : (printEvents .keep suiteExample).map (suiteRead .keep 9) =
    some ([.streamStart, .documentStart false, .sequenceStart (some [0x61]) none .flow,
      .scalar none (some [0x21, 0x78]) [0x62, 0x0A, 0x63] false .double, .alias (some [0x61]), .sequenceEnd, .documentEnd true, .streamEnd], none) := by
  decide +kernel

example : ∀ e ∈ suiteExample, CleanEvent e ∧ ReadsBack e := by
  simp [suiteExample, CleanEvent, ReadsBack, CleanName, PropsFit, utf8s, utf8]

/-- The line of a scalar: `=VAL &a <!x> "b\n`. -/
example : printEvent .off (.scalar (some [0x61]) (some [0x21, 0x78]) [0x62, 0x0A] false false .double) =
    some (asc ['=', 'V', 'A', 'L', ' ', '&', 'a', ' ', '<', '!', 'x', '>', ' ', '"', 'b', '\\', 'n']) := by decide +kernel

end LibYaml
