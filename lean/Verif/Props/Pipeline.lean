import Verif.Proofs.Pipeline
import Verif.Proofs.LoaderSim
import Verif.Props.Loader
import Verif.Props.Reader
import Verif.Props.ParserGrammar
import Verif.Props.Scanner

/-!
# C56: from bytes to events and documents

The theorems on the parser and the loader hold for an arbitrary source of tokens. Here the source is the scanner over the
reader over a byte string, as in the library: the parser calls the scanner for the next token, the scanner asks the reader
for characters, the reader calls the handler. `o` is how the handler splits the bytes, and when it fails. `f`, `fuel` and `m`
bound the loops of the scanner, the parser and the loader; for every value that is large enough for the number of bytes the
theorems show that the bound is not reached.
-/

namespace LibYaml

open Spec

/-- A parser that has just been given its input. -/
def parserStart (enc : Option Enc) (bytes : List UInt8) : Parser (Scanner × RS) :=
  Parser.init ((scanStart enc bytes).scanner, (scanStart enc bytes).input)

/-- `k` calls of `yaml_parser_parse`. -/
def parseBytes (o : Oracle) (n : Int) (f fuel : Nat) (enc : Option Enc) (bytes : List UInt8) (k : Nat) :
    Except Fail (List POut × Parser (Scanner × RS)) :=
  parseN (scannerSrc o f) n fuel k (parserStart enc bytes)

/-- `k` calls of `yaml_parser_load`. -/
def loadBytes (room : Nat → Bool) (o : Oracle) (n : Int) (f fuel m : Nat) (enc : Option Enc) (bytes : List UInt8) (k : Nat) :
    Except Fail (List LOut × Parser (Scanner × RS)) :=
  loadN room (scannerSrc o f) n fuel m k (parserStart enc bytes)

section
variable {o : Oracle} {n : Int} {f fuel m k : Nat} {enc : Option Enc} {bytes : List UInt8}

/-- A safe source that ends and behaves like the scanner. -/
theorem pipeline_source (o : Oracle) (hsize : bytes.length < maxFileSize) (hf : bytes.length + 3 < f) :
    ∃ (σ : Type) (S : TokSrc σ) (R : σ → Scanner × RS → Prop) (left : σ → Nat) (x : σ), S.Safe ∧ Bounded S left ∧
      Simulates S (scannerSrc o f) R ∧ R x ((scanStart enc bytes).scanner, (scanStart enc bytes).input) ∧
      (∀ g y y', R g y → R g y' → y = y') ∧ left x ≤ 4 * bytes.length + 6 := by
  obtain ⟨good, tail, hs⟩ := exists_split (chosen enc bytes).1 (chosen enc bytes).2
  have hT := inputOf_length (enc := enc) (bytes := bytes) hs
  have hb : BadOk (inputOf enc bytes good tail).bad := inputOf_badOk
  have hf' : (inputOf enc bytes good tail).cs.length + 2 < f := by omega
  refine ⟨GState (inputOf enc bytes good tail).cs (inputOf enc bytes good tail).bad, goodSrc o hb hf', fun g x => x = g.x, GState.left,
    ⟨_, [], good_start hsize hs⟩, good_safe hb hf', ⟨?_, ?_, ?_⟩, good_sim o hb hf', rfl, fun g y y' h h' => h.trans h'.symm, ?_⟩
  · rintro g er h rfl
    exact good_error hb hf' h
  · intro g t g' h
    exact (good_left hb hf' h).1
  · intro g t g' h
    exact (good_left hb hf' h).2
  · unfold GState.left
    simp only [List.length_nil]
    omega

/-- C56. For every byte string, every handler, every setting of the encoding and of the nesting limit, any number of calls
of the parser return: none reads memory it must not read or runs forever. The events are a prefix of an event stream, and
a whole one if STREAM-END is among them, and then the parser's stacks are empty. There are at most 16 events per byte and
28 more, and after that many calls the stream has ended or an error has been reported. -/
theorem C56_parsing_is_total (o : Oracle) (n : Int) (enc : Option Enc) (bytes : List UInt8) (hsize : bytes.length < maxFileSize)
    (hf : bytes.length + 3 < f) (hfuel : 4 * bytes.length + 7 < fuel) (k : Nat) :
    ∃ os p, parseBytes o n f fuel enc bytes k = .ok (os, p) ∧ os.length = k ∧
      (∃ w, GStream w ∧ events os <+: w) ∧
      (.streamEnd ∈ events os → GStream (events os) ∧ p.st.states = [] ∧ p.st.marks = [] ∧ p.st.state = .done) ∧
      (events os).length ≤ 16 * bytes.length + 28 ∧
      (16 * bytes.length + 28 < k → .failed ∈ os ∨ .streamEnd ∈ events os) := by
  obtain ⟨σ, S, R, left, x, hS, hB, hR, hx, hfun, hl⟩ := pipeline_source (enc := enc) o hsize hf
  have hsim := parseN_sim hR n fuel k (Parser.init x) _ hx
  cases hp : parseN S n fuel k (Parser.init x) with
  | error e =>
    exfalso
    have h1 := C26_no_underflow hS n fuel k x
    have h2 := nf_parseN hB n fuel k (Parser.init x) (left x) (Nat.le_refl _) (by omega)
    have h3 : e = .ub ∨ e = .fuel := by
      clear h1 h2 hsim
      generalize Parser.init x = p at hp
      induction k generalizing p with
      | zero => cases hp
      | succ k ih =>
        unfold parseN at hp
        cases hq : parse S n fuel p with
        | error e' =>
          rw [hq] at hp
          cases hp
          unfold parse at hq
          split at hq
          · cases hq
          · cases hs : stateMachine S n fuel p.st with
            | ok r => rw [hs] at hq; cases hq
            | error e' => rw [hs] at hq; cases e' <;> cases hq <;> simp
        | ok r =>
          obtain ⟨o', q⟩ := r
          rw [hq] at hp
          simp only at hp
          cases hq2 : parseN S n fuel k q with
          | ok r => obtain ⟨os, q'⟩ := r; rw [hq2] at hp; cases hp
          | error e' => rw [hq2] at hp; cases hp; exact ih q hq2
    rcases h3 with rfl | rfl
    · exact h1 hp
    · exact h2 hp
  | ok r =>
    obtain ⟨os, p⟩ := r
    rw [hp] at hsim
    obtain ⟨y, hy, h⟩ := hsim.ok
    have hg := C25_events_obey_grammar hS n fuel k x hp
    have hbound := events_bounded hB hp
    refine ⟨os, p.over y, h, ?_, hg.1, fun he => ⟨hg.2 he, ?_⟩, by omega, fun hk => ?_⟩
    · clear hg hbound h hy hsim
      generalize Parser.init x = q at hp
      induction k generalizing q os with
      | zero => cases hp; rfl
      | succ k ih =>
        unfold parseN at hp
        cases hq : parse S n fuel q with
        | error e' => rw [hq] at hp; cases hp
        | ok r =>
          obtain ⟨o', q'⟩ := r
          rw [hq] at hp
          simp only at hp
          cases hq2 : parseN S n fuel k q' with
          | error e' => rw [hq2] at hp; cases hp
          | ok r =>
            obtain ⟨os', q''⟩ := r
            rw [hq2] at hp
            cases hp
            simp only [List.length_cons, Nat.add_right_cancel_iff]
            exact ih _ _ hq2
    · exact C26_stacks_empty_at_end hS n fuel k x hp he
    · by_cases h1 : .failed ∈ os
      · exact .inl h1
      · by_cases h2 : .streamEnd ∈ events os
        · exact .inr h2
        · have := all_events hS (ready_init x) (by simp) hp h1 h2
          omega

/-- C56. The tokens the parser gets are those that calls of `yaml_parser_scan` deliver, up to STREAM-END; if it asks for
more it gets STREAM-END again. So the theorems on the scanner are about the tokens the parser sees. -/
theorem C56_tokens_are_those_of_the_scanner (o : Oracle) (enc : Option Enc) (bytes : List UInt8) (hsize : bytes.length < maxFileSize)
    (hf : bytes.length + 3 < f) {toks : List Token} {y : Scanner × RS}
    (h : Feeds (scannerSrc o f) ((scanStart enc bytes).scanner, (scanStart enc bytes).input) toks y) :
    ∃ D E, toks = D ++ E ∧ (scanRun o f (scanStart enc bytes) D.length).1 = D.map .token ∧ (∀ t ∈ E, t.data = .streamEnd) ∧
      (E ≠ [] → Spec.Complete D) := by
  obtain ⟨good, tail, hs⟩ := exists_split (chosen enc bytes).1 (chosen enc bytes).2
  have hb : BadOk (inputOf enc bytes good tail).bad := inputOf_badOk
  have main : (∃ D E, toks = D ++ E ∧ (scanRun o f (scanStart enc bytes) D.length).1 = D.map .token ∧ (∀ t ∈ E, t.data = .streamEnd) ∧
      (scanRun o f (scanStart enc bytes) D.length).2.error = none ∧
      if (scanRun o f (scanStart enc bytes) D.length).2.ended = true then
        Spec.Complete D ∧ ∃ i, Over y.1 i ∧ Rel y.2 i ∧ i.bad = (inputOf enc bytes good tail).bad
      else E = [] ∧ y = ((scanRun o f (scanStart enc bytes) D.length).2.scanner, (scanRun o f (scanStart enc bytes) D.length).2.input)) := by
    induction h with
    | nil => exact ⟨[], [], rfl, rfl, by simp, rfl, by rw [if_neg (by simp [scanRun, scanStart])]; exact ⟨rfl, rfl⟩⟩
    | @snoc ts x1 t x2 _ hn ih =>
      obtain ⟨D, E, rfl, h1, h2, h3, h4⟩ := ih
      by_cases hend : (scanRun o f (scanStart enc bytes) D.length).2.ended = true
      · rw [if_pos hend] at h4
        obtain ⟨hc, i, k1, k2, k3⟩ := h4
        obtain ⟨k4, i', k5, k6, k7⟩ := over_step hb (by omega) k1 k2 k3 hn
        refine ⟨D, E ++ [t], by simp, h1, ?_, h3, ?_⟩
        · intro u hu
          rcases List.mem_append.mp hu with hu | hu
          · exact h2 u hu
          · simp only [List.mem_singleton] at hu; rw [hu]; exact k4
        · rw [if_pos hend]; exact ⟨hc, i', k5, k6, k7⟩
      · rw [if_neg hend] at h4
        obtain ⟨rfl, rfl⟩ := h4
        have hrun : scanRun o f (scanStart enc bytes) (D ++ [t]).length = (((scanRun o f (scanStart enc bytes) D.length).1 ++ [.token t]),
            { (scanRun o f (scanStart enc bytes) D.length).2 with scanner := x2.1, input := x2.2, ended := t.data == .streamEnd }) := by
          have hlen : (D ++ [t]).length = D.length + 1 := by simp
          rw [hlen]
          have e : scanRun o f (scanStart enc bytes) (D.length + 1) =
            ((scanRun o f (scanStart enc bytes) D.length).1 ++ [(scanCall (onReader o) f (scanRun o f (scanStart enc bytes) D.length).2).1],
              (scanCall (onReader o) f (scanRun o f (scanStart enc bytes) D.length).2).2) := rfl
          rw [e]
          have hn' : (match onReader o (nextToken f) (scanRun o f (scanStart enc bytes) D.length).2.scanner
              (scanRun o f (scanStart enc bytes) D.length).2.input with
            | .error e => .error e
            | .ok ((t, s), st) => .ok (t, (s, st))) = Except.ok (t, x2) := hn
          have hcall : scanCall (onReader o) f (scanRun o f (scanStart enc bytes) D.length).2 = (.token t,
            { (scanRun o f (scanStart enc bytes) D.length).2 with scanner := x2.1, input := x2.2, ended := t.data == .streamEnd }) := by
            unfold scanCall
            rw [if_neg (by rw [h3]; simpa using hend)]
            cases hr : onReader o (nextToken f) (scanRun o f (scanStart enc bytes) D.length).2.scanner
              (scanRun o f (scanStart enc bytes) D.length).2.input with
            | error e => rw [hr] at hn'; cases hn'
            | ok r => obtain ⟨⟨t', s⟩, st⟩ := r; rw [hr] at hn'; cases hn'; rfl
          rw [hcall]
        refine ⟨D ++ [t], [], by simp, by rw [hrun, h1]; simp, by simp, by rw [hrun]; exact h3, ?_⟩
        by_cases ht : (t.data == .streamEnd) = true
        · rw [if_pos (by rw [hrun]; exact ht)]
          have hinj : ∀ {a b : List Token}, a.map ScanOut.token = b.map ScanOut.token → a = b := by
            intro a
            induction a with
            | nil => intro b h; cases b with
              | nil => rfl
              | cons _ _ => cases h
            | cons t a ih => intro b h; cases b with
              | nil => cases h
              | cons u b =>
                simp only [List.map_cons, List.cons.injEq, ScanOut.token.injEq] at h
                rw [h.1, ih h.2]
          have hT := inputOf_length (enc := enc) (bytes := bytes) hs
          cases scan_inv (o := o) hsize hs hf D.length with
          | going D' i hout _ _ hnext rel bad =>
            rw [h1] at hout
            cases hinj hout
            obtain ⟨k1, k2⟩ := last_step hb (by omega) hnext rel bad hn (by simpa using ht)
            obtain ⟨body, u, k3, k4, k5⟩ := final_body k1
            exact ⟨⟨body, u, k3, k4, k5⟩, k2⟩
          | failed _ _ _ _ _ _ herr => rw [h3] at herr; cases herr
          | ended _ _ _ hend' => exact absurd hend' hend
        · rw [if_neg (by rw [hrun]; exact ht)]
          exact ⟨rfl, by rw [hrun]⟩
  obtain ⟨D, E, h1, h2, h3, _, h4⟩ := main
  refine ⟨D, E, h1, h2, h3, fun hE => ?_⟩
  split at h4
  · exact h4.1
  · exact absurd h4.1 hE

/-- C56. If the whole input is decodable and the handler does not fail, what the parser returns depends only on the
characters: the same calls over the text return the same, with the same marks. In particular it does not depend on how the
handler splits the input. -/
theorem C56_events_depend_on_characters (o : Oracle) (ho : NoFail o) (n : Int) (fuel : Nat) (enc : Option Enc) (bytes : List UInt8)
    (hsize : bytes.length < maxFileSize) (good : List Nat) (hd : Decodes (chosen enc bytes).1 (chosen enc bytes).2 good)
    (hf : bytes.length + 3 < f) (k : Nat) :
    match parseN (textSrc f) n fuel k (Parser.init ({ enc := (chosen enc bytes).1 }, { cs := good ++ [0] })) with
    | .ok (os, p) => ∃ x, parseBytes o n f fuel enc bytes k = .ok (os, p.over x) ∧ x.1 = p.st.src.1
    | .error e => parseBytes o n f fuel enc bytes k = .error e := by
  have hs := decodes_split hd
  have hT := inputOf_length (enc := enc) (bytes := bytes) hs
  have hin : inputOf enc bytes good [] = { cs := good ++ [0] } := by unfold inputOf; rfl
  rw [hin] at hT
  have h0 : OnText (good ++ [0]) ({ enc := (chosen enc bytes).1 }, { cs := good ++ [0] })
      ((scanStart enc bytes).scanner, (scanStart enc bytes).input) := by
    refine ⟨rfl, ?_, rfl, ?_⟩
    · have := rel_init enc bytes good [] hsize hs
      rwa [hin] at this
    · exact .inl ⟨[], .fresh rfl ⟨⟨⟨[], rfl, rfl, by rintro ⟨h, _⟩; cases h⟩, rfl, by simp, by simp⟩, rfl⟩⟩
  have hT' : (good ++ [0]).length ≤ bytes.length + 1 := hT
  have hsim := parseN_sim (text_sim (T := good ++ [0]) (f := f) ho (by omega)) n fuel k (Parser.init _) _ h0
  cases hp : parseN (textSrc f) n fuel k (Parser.init ({ enc := (chosen enc bytes).1 }, { cs := good ++ [0] })) with
  | error e => rw [hp] at hsim; exact hsim.error
  | ok r =>
    obtain ⟨os, p⟩ := r
    rw [hp] at hsim
    obtain ⟨y, hy, h⟩ := hsim.ok
    exact ⟨y, h, hy.1⟩

/-- C56. Whenever the parser reaches the end of the stream, the tokens it got from the scanner are a word of the grammar as
implemented (C53), and the events are the ones the grammar gives. -/
theorem C56_grammar (o : Oracle) (n : Int) (fuel : Nat) (enc : Option Enc) (bytes : List UInt8) (hsize : bytes.length < maxFileSize)
    (hf : bytes.length + 3 < f) (k : Nat) {os : List POut} {p : Parser (Scanner × RS)}
    (h : parseBytes o n f fuel enc bytes k = .ok (os, p)) (hend : .streamEnd ∈ events os) :
    ∃ toks y, Feeds (scannerSrc o f) ((scanStart enc bytes).scanner, (scanStart enc bytes).input) toks y ∧
      Spec.Stream .implemented (toks.map Token.data) (events os) := by
  obtain ⟨σ, S, R, left, x, hS, hB, hR, hx, hfun, hl⟩ := pipeline_source (enc := enc) o hsize hf
  have hsim := parseN_sim hR n fuel k (Parser.init x) _ hx
  have hov : (Parser.init x).over ((scanStart enc bytes).scanner, (scanStart enc bytes).input) = parserStart enc bytes := rfl
  rw [hov, show parseN (scannerSrc o f) n fuel k (parserStart enc bytes) = .ok (os, p) from h] at hsim
  obtain ⟨q, y, hp, _, _⟩ := hsim.of_ok
  obtain ⟨toks, z, h1, h2⟩ := C53_sound hS n fuel k x hp hend
  obtain ⟨z', _, h3⟩ := feeds_sim hR hx h1
  exact ⟨toks, z', h3, h2⟩

/-- C56. The version and tag directives and the tags in the events are those of the tokens (C28, C29). -/
theorem C56_directives_and_tags (o : Oracle) (n : Int) (fuel : Nat) (enc : Option Enc) (bytes : List UInt8)
    (hsize : bytes.length < maxFileSize) (hf : bytes.length + 3 < f) (k : Nat) {os : List POut} {p : Parser (Scanner × RS)}
    (h : parseBytes o n f fuel enc bytes k = .ok (os, p)) :
    ∃ consumed w, Feeds (scannerSrc o f) ((scanStart enc bytes).scanner, (scanStart enc bytes).input)
        (consumed ++ p.st.avail.toList) p.st.src ∧
      ({} : Walk).run (consumed.map Token.data) = some w ∧ w.items = (events os).flatMap itemOf := by
  obtain ⟨σ, S, R, left, x, hS, hB, hR, hx, hfun, hl⟩ := pipeline_source (enc := enc) o hsize hf
  have hsim := parseN_sim hR n fuel k (Parser.init x) _ hx
  have hov : (Parser.init x).over ((scanStart enc bytes).scanner, (scanStart enc bytes).input) = parserStart enc bytes := rfl
  rw [hov, show parseN (scannerSrc o f) n fuel k (parserStart enc bytes) = .ok (os, p) from h] at hsim
  obtain ⟨q, y, hp, hy, rfl⟩ := hsim.of_ok
  obtain ⟨c, w, h1, h2, h3⟩ := C28_C29_directives_and_tags hS n fuel k x hp
  obtain ⟨z, hz, h4⟩ := feeds_sim hR hx h1
  cases hfun _ _ _ hy hz
  exact ⟨c, w, h4, h2, h3⟩

/-- C56. Calls of the loader on any byte string return, until one has failed (the next call would abort, C35). -/
theorem C56_loading_is_total (room : Nat → Bool) (o : Oracle) (n : Int) (enc : Option Enc) (bytes : List UInt8)
    (hsize : bytes.length < maxFileSize) (hf : bytes.length + 3 < f) (hfuel : 4 * bytes.length + 7 < fuel)
    (hm : 16 * bytes.length + 28 < m) (k : Nat) :
    ∃ j os r, j ≤ k ∧ loadBytes room o n f fuel m enc bytes j = .ok (os, r) ∧ (j = k ∨ .failed ∈ os) := by
  obtain ⟨σ, S, R, left, x, hS, hB, hR, hx, hfun, hl⟩ := pipeline_source (enc := enc) o hsize hf
  obtain ⟨j, os, r, h1, h2, h3⟩ := loadN_total (n := n) (fuel := fuel) hS hB (x := x) room m k (by omega) (by omega)
  have hsim := loadN_sim hR room n fuel m j (Parser.init x) _ hx
  rw [h2] at hsim
  obtain ⟨y, _, h⟩ := hsim.ok
  exact ⟨j, os, r.over y, h1, h, h3⟩

/-- C56. The documents loaded from a byte string are well formed (C31), and each call gives one document of the stream of
events that the parser delivers (C34), with the content the events say (C33). -/
theorem C56_loading (room : Nat → Bool) (o : Oracle) (n : Int) (fuel m : Nat) (enc : Option Enc) (bytes : List UInt8)
    (hsize : bytes.length < maxFileSize) (hf : bytes.length + 3 < f) (k : Nat) (hk : k ≠ 0) {os : List LOut} {r : Parser (Scanner × RS)}
    (h : loadBytes room o n f fuel m enc bytes k = .ok (os, r)) :
    (∀ d, .doc d ∈ os → d = Doc.empty ∨ d.nodes ≠ [] ∧ (∀ nd ∈ d.nodes, IdsValid d nd) ∧
      ∀ j, 1 ≤ j → j ≤ d.nodes.length → NodeReach d.nodes [1] j) ∧
    ∃ (se : Event) (ws : List (List Event)) (ds : List Doc) (tail : List LOut), (∃ enc, se.data = .streamStart enc) ∧
      os = ds.map .doc ++ tail ∧ os.length = k ∧ ws.length = ds.length ∧ (∀ wd ∈ ws.zip ds, RepDoc wd.1 wd.2) ∧
      ((tail = [] ∧ Evs (scannerSrc o f) n fuel (parserStart enc bytes) (se :: ws.flatten) r) ∨
       (∃ j ee, tail = List.replicate (j + 1) (.doc Doc.empty) ∧ ee.data = .streamEnd ∧
          Evs (scannerSrc o f) n fuel (parserStart enc bytes) (se :: ws.flatten ++ [ee]) r ∧
          GStream ((se :: ws.flatten ++ [ee]).map Event.data)) ∨
       tail = [.failed]) := by
  obtain ⟨σ, S, R, left, x, hS, hB, hR, hx, hfun, hl⟩ := pipeline_source (enc := enc) o hsize hf
  have hsim := loadN_sim hR room n fuel m k (Parser.init x) _ hx
  have hov : (Parser.init x).over ((scanStart enc bytes).scanner, (scanStart enc bytes).input) = parserStart enc bytes := rfl
  rw [hov, show loadN room (scannerSrc o f) n fuel m k (parserStart enc bytes) = .ok (os, r) from h] at hsim
  obtain ⟨q, y, hp, hy, rfl⟩ := hsim.of_ok
  refine ⟨fun d hd => C31_loaded_documents_are_well_formed hS room n fuel m k x hp hd, ?_⟩
  obtain ⟨se, ws, ds, tail, h1, h2, h3, h4, h5, h6⟩ := C34_one_document_per_call hS room n fuel m k x hp hk
  refine ⟨se, ws, ds, tail, h1, h2, h3, h4, h5, ?_⟩
  rcases h6 with ⟨k1, k2⟩ | ⟨j, ee, k1, k2, k3, k4⟩ | k1
  · obtain ⟨z, hz, k3⟩ := evs_sim hR hx k2
    cases hfun _ _ _ hy hz
    exact .inl ⟨k1, k3⟩
  · obtain ⟨z, hz, k5⟩ := evs_sim hR hx k3
    cases hfun _ _ _ hy hz
    exact .inr (.inl ⟨j, ee, k1, k2, k5, k4⟩)
  · exact .inr (.inr k1)

end

/-! ### Concrete cases -/

/-- What the calls returned, without marks. -/
def outputs (r : Except Fail (List POut × Parser (Scanner × RS))) : Option (List EvData × Nat) :=
  match r with
  | .ok (os, _) => some (events os, os.length)
  | .error _ => none

/-- `[a]`, delivered byte by byte. -/
example : outputs (parseBytes (fun _ => some 1) 1000 7 20 none [91, 97, 93] 8) =
    some ([.streamStart (some .utf8), .documentStart none [] true, .sequenceStart none none true .flow,
      .scalar none none [97] true false .plain, .sequenceEnd, .documentEnd true, .streamEnd], 8) := by decide +kernel

/-- `[a` fails. -/
example : ∃ os p, parseBytes (fun _ => some 1) 1000 6 16 none [91, 97] 61 = .ok (os, p) ∧
    (.failed ∈ os ∨ .streamEnd ∈ events os) := by
  obtain ⟨os, p, h1, _, _, _, _, h2⟩ := C56_parsing_is_total (f := 6) (fuel := 16) (fun _ => some 1) 1000 none [91, 97] (by decide) (by decide) (by decide) 61
  exact ⟨os, p, h1, h2 (by decide)⟩

example : Decodes (chosen none [91, 97, 93]).1 (chosen none [91, 97, 93]).2 [91, 97, 93] := ⟨by decide, by decide⟩

example : NoFail (fun _ => some 1) := fun _ h => by cases h

end LibYaml
