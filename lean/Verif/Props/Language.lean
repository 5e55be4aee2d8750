import Verif.Spec.Language
import Verif.Proofs.LexDepth
import Verif.Props.Layout
import Verif.Proofs.EmitBack

/-!
C59: which texts the parser accepts, and which events it delivers for them.

The three descriptions are put together: the lexical and layout rules (`Spec.Lexed`, `Spec.layout`) say which tokens a text has, and the
grammar (`Spec.Stream .implemented`) says which events these tokens have. No definition of the model occurs in either.
-/

namespace LibYaml

open Spec

variable {f fuel : Nat}

theorem docs_ends {v : Variant} {ts : List TokData} {evs : List EvData} (h : Docs v ts evs) : .streamEnd ∈ evs := by
  induction h <;> simp_all

theorem stream_ends {v : Variant} {ts : List TokData} {evs : List EvData} (h : Spec.Stream v ts evs) : .streamEnd ∈ evs := by
  cases h with
  | explicit enc h => simp [docs_ends h]
  | implicit enc k _ h => simp [docs_ends h]

/-- **C59**: a text has at most one stream of events. -/
theorem C59_one_meaning {en : Enc} {text : List Nat} {evs evs' : List EvData} (h : Meaning en text evs) (h' : Meaning en text evs') :
    evs = evs' := by
  obtain ⟨ls, u, lv, key, h1, h2, h3⟩ := h
  obtain ⟨ls', u', lv', key', h1', h2', h3'⟩ := h'
  obtain ⟨rfl, _⟩ := C58_one_layout text h1 h2 h1' h2'
  exact C53_unambiguous h3 h3'

/-- **C59**, soundness: if the calls of the parser deliver STREAM-END, the whole input was decoded and the events are those of the text. -/
theorem C59_sound (o : Oracle) (ho : NoFail o) (n : Int) (enc : Option Enc) (bytes : List UInt8) (hsize : bytes.length < maxFileSize)
    (hf : bytes.length + 3 < f) (good : List Nat) (tail : List UInt8) (hs : Split (chosen enc bytes).1 (chosen enc bytes).2 good tail)
    (hlen : good.length + 1 < maxInt) (k : Nat) {os : List POut} {p : Parser (Scanner × RS)}
    (h : parseBytes o n f fuel enc bytes k = .ok (os, p)) (hend : .streamEnd ∈ events os) :
    tail = [] ∧ Meaning (chosen enc bytes).1 good (events os) := by
  obtain ⟨toks, y, h1, h2⟩ := C56_grammar o n fuel enc bytes hsize hf k h hend
  obtain ⟨D, E, rfl, h3, h4, h5⟩ := C56_tokens_are_those_of_the_scanner o enc bytes hsize hf h1
  obtain ⟨l, e1, e2⟩ := stream_end h2
  have hE : E = [] := by
    by_contra hne
    obtain ⟨body, t, rfl, _, ht⟩ := h5 hne
    rcases List.eq_nil_or_concat E with rfl | ⟨E', t', rfl⟩
    · exact hne rfl
    · rw [List.concat_eq_append, ← List.append_assoc, List.map_append] at e1
      obtain ⟨e3, _⟩ := List.append_inj' e1 rfl
      exact e2 (by rw [← e3, ← ht]; simp)
  subst hE
  rw [List.append_nil] at e1 h2
  obtain ⟨t, ht, htd⟩ : ∃ t ∈ D, t.data = .streamEnd := by
    have : TokData.streamEnd ∈ D.map Token.data := by rw [e1]; simp
    obtain ⟨t, ht, h⟩ := List.mem_map.mp this
    exact ⟨t, ht, h⟩
  have hc : Spec.Complete D := by
    cases scan_inv (o := o) hsize hs hf D.length with
    | going A i hout he _ next _ _ =>
      rw [h3] at hout
      obtain rfl : D = A := List.map_inj_right (by intro a b h; cases h; rfl) |>.mp hout
      rcases next_opened next with rfl | ⟨x, r, en, rfl, g1, g2⟩
      · cases ht
      · rcases List.mem_cons.mp ht with rfl | ht
        · rw [g1] at htd; cases htd
        · have := g2 t ht
          rw [isStreamTok, htd] at this
          cases this
    | failed A j er i hout he herr' _ next =>
      rw [h3] at hout
      have : ScanOut.failed ∈ D.map ScanOut.token := by rw [hout]; simp
      simp at this
    | ended A j hout he herr' final _ =>
      rw [h3] at hout
      have hA := final_body final
      cases j with
      | zero =>
        simp only [List.replicate_zero, List.append_nil] at hout
        obtain rfl : D = A := List.map_inj_right (by intro a b h; cases h; rfl) |>.mp hout
        exact hA
      | succ j =>
        have : ScanOut.nothing ∈ D.map ScanOut.token := by rw [hout]; simp [List.replicate_succ]
        simp at this
  obtain ⟨en, ls, u, lv, key, g1, _, g3⟩ := C58_tokens_of_the_layout o enc bytes hsize f hf D.length good tail hs D [] (by rw [h3]; simp) (by simp)
  obtain ⟨g4, rfl, rfl, g5⟩ := g3 hc
  refine ⟨rfl, ls, _, lv, key, g1, g5, ?_⟩
  have hd := C58_delivers_the_layout o ho enc bytes hsize f hf u hs hlen g1 g5 D.length
  rw [h3, List.take_append_of_le_length (by rw [g4]; simp), List.take_of_length_le (by rw [g4]; simp)] at hd
  rw [List.map_inj_right (by intro a b h; cases h; rfl)] at hd
  rw [hd] at h2
  exact h2

/-- **C59**, completeness: if the text has the events `evs`, the calls of the parser deliver exactly these, one by one. -/
theorem C59_complete (o : Oracle) (ho : NoFail o) (n : Int) (enc : Option Enc) (bytes : List UInt8) (hsize : bytes.length < maxFileSize)
    (hf : bytes.length + 3 < f) (hfuel : 4 * bytes.length + 7 < fuel) (good : List Nat)
    (hs : Split (chosen enc bytes).1 (chosen enc bytes).2 good []) (hlen : good.length + 1 < maxInt) (hdeep : ShallowText good n)
    {evs : List EvData} (h : Meaning (chosen enc bytes).1 good evs) :
    ∃ (es : List Event) (p : _), parseBytes o n f fuel enc bytes evs.length = .ok (es.map .event, p) ∧ es.map Event.data = evs ∧
      p.error = none ∧ p.st.state = .done := by
  obtain ⟨ls, u, lv, key, k1, k2, k3⟩ := h
  have hT := inputOf_length (enc := enc) (bytes := bytes) hs
  have hin : inputOf enc bytes good [] = { cs := good ++ [0] } := by unfold inputOf; rfl
  rw [hin] at hT
  have hT' : (good ++ [0]).length ≤ bytes.length + 1 := hT
  have h0 : OnText (good ++ [0]) ({ enc := (chosen enc bytes).1 }, { cs := good ++ [0] })
      ((scanStart enc bytes).scanner, (scanStart enc bytes).input) := by
    refine ⟨rfl, ?_, rfl, ?_⟩
    · have := rel_init enc bytes good [] hsize hs
      rwa [hin] at this
    · exact .inl ⟨[], .fresh rfl ⟨⟨⟨[], rfl, rfl, by rintro ⟨h, _⟩; cases h⟩, rfl, by simp, by simp⟩, rfl⟩⟩
  have h1 : TextState (good ++ [0]) ({ enc := (chosen enc bytes).1 }, { cs := good ++ [0] }) :=
    ⟨rfl, .inl ⟨[], .fresh rfl ⟨⟨⟨[], rfl, rfl, by rintro ⟨h, _⟩; cases h⟩, rfl, by simp, by simp⟩, rfl⟩⟩⟩
  obtain ⟨σ, S, R, left, x, hS, hB, hR, hx, hfun, hl⟩ := pipeline_source (enc := enc) o hsize hf
  have hsim := text_sim (T := good ++ [0]) (f := f) ho (by omega)
  let toks : List Token := { data := .streamStart (chosen enc bytes).1, start := {}, stop := {} } :: layout [] ls
  have q2 := feeds_of_scanRun (o := o) (f := f) (enc := enc) (bytes := bytes) (D := toks) (k := toks.length) (by
    rw [C58_delivers_the_layout o ho enc bytes hsize f hf good hs hlen k1 k2, List.take_append_of_le_length (by simp [toks]),
      List.take_of_length_le (by simp [toks])])
  obtain ⟨x1, q3, q4⟩ := feeds_sim_back hR hx q2
  have hlim : BelowLimit S x n := by
    intro ts z hz
    obtain ⟨z1, r1, r2⟩ := feeds_sim hR hx hz
    obtain ⟨z2, r3, r4⟩ := feeds_sim_back hsim h0 r2
    rw [(hR _ _ r1).1, ← (hsim _ _ r3).1]
    obtain ⟨ls', u', lv', key', m1, m2⟩ := (textState_feeds (by omega) h1 r4).depth
    have := hdeep ls' u' lv' key' m1
    rw [← m2] at this
    exact this
  have m1 : Spec.Stream .implemented (toks.map Token.data) evs := k3
  have hcount := feeds_count hB q4 (stream_end m1)
  obtain ⟨es, p, u1, u2, u3, u4⟩ := C53_complete hS n fuel x hlim q4 (by omega) m1
  have hps := parseN_sim hR n fuel evs.length (Parser.init x) _ hx
  rw [u2] at hps
  obtain ⟨y2, _, v2⟩ := hps.ok
  exact ⟨es, p.over y2, v2, u1, u3, u4⟩

/-- **C59**: the parser delivers a whole stream of events exactly if the input decodes to a text that has it. -/
theorem C59_accepts_exactly (o : Oracle) (ho : NoFail o) (n : Int) (enc : Option Enc) (bytes : List UInt8) (hsize : bytes.length < maxFileSize)
    (hf : bytes.length + 3 < f) (hfuel : 4 * bytes.length + 7 < fuel) (good : List Nat) (tail : List UInt8)
    (hs : Split (chosen enc bytes).1 (chosen enc bytes).2 good tail) (hlen : good.length + 1 < maxInt) (hdeep : ShallowText good n)
    (evs : List EvData) :
    (∃ k os p, parseBytes o n f fuel enc bytes k = .ok (os, p) ∧ events os = evs ∧ .streamEnd ∈ evs) ↔
      tail = [] ∧ Meaning (chosen enc bytes).1 good evs := by
  constructor
  · rintro ⟨k, os, p, h1, rfl, h3⟩
    exact C59_sound o ho n enc bytes hsize hf good tail hs hlen k h1 h3
  · rintro ⟨rfl, h⟩
    obtain ⟨es, p, h1, h2, _, h4⟩ := C59_complete o ho n enc bytes hsize hf hfuel good hs hlen hdeep h
    refine ⟨_, _, p, h1, ?_, ?_⟩
    · rw [events_map, h2]
    · obtain ⟨_, _, _, _, _, _, h⟩ := h
      exact stream_ends h

/-! ### A sample -/

/-- The events of `a: [b]`. -/
def sampleEvents : List EvData :=
  [.streamStart (some .utf8), .documentStart none [] true, .mappingStart none none true .block, .scalar none none [97] true false .plain,
   .sequenceStart none none true .flow, .scalar none none [98] true false .plain, .sequenceEnd, .mappingEnd, .documentEnd true, .streamEnd]

theorem sample_meaning : Meaning .utf8 [97, 58, 32, 91, 98, 93] sampleEvents := by
  obtain ⟨ls, u, lv, key, h1, _, h3, h4⟩ := sample_lexed
  refine ⟨ls, u, lv, key, h1, h4, ?_⟩
  rw [h3]
  have k : Gram .implemented [] (.opt true true) [.scalar [97] .plain] [.scalar none none [97] true false .plain] :=
    .present (.scalar _ _ .none)
  have b : Gram .implemented [] (.node false false) [.scalar [98] .plain] [.scalar none none [98] true false .plain] := .scalar _ _ .none
  have v : Gram .implemented [] (.opt true true) [.flowSequenceStart, .scalar [98] .plain, .flowSequenceEnd]
      [.sequenceStart none none true .flow, .scalar none none [98] true false .plain, .sequenceEnd] :=
    .present (.flowSequence (p := []) .none (.itemsOne (.item b)))
  exact .implicit (r := [.streamEnd]) .utf8 0 (.blockMapping (p := []) .none (.pairsCons k (.value v) .pairsNil)) .done

/-- The texts of fewer than 500 characters do not reach the default limit (parser.c:67). -/
example (text : List Nat) (h : text.length < 499) : ShallowText text 1000 := shallow_of_short (by omega)

/-- The events of `a: [b]`, however its bytes arrive. -/
example (o : Oracle) (ho : NoFail o) : ∃ (es : List Event) (p : _),
    parseBytes o 1000 20 100 none sample 10 = .ok (es.map .event, p) ∧ es.map Event.data = sampleEvents := by
  have hs : Split (chosen none sample).1 (chosen none sample).2 [97, 58, 32, 91, 98, 93] [] := ⟨by decide, by decide, stuck_nil _⟩
  obtain ⟨es, p, h1, h2, _⟩ := C59_complete (f := 20) (fuel := 100) o ho 1000 none sample (by decide) (by decide) (by decide) _ hs (by decide)
    (shallow_of_short (by decide)) sample_meaning
  exact ⟨es, p, h1, h2⟩

end LibYaml
