import Verif.Proofs.ErrorMarks
import Verif.Proofs.ErrorOrderRun
import Verif.Props.NodePositions

/-!
# C77: errors point into the text

Every error of the scanner and of the parser carries the position of the problem and, mostly, of its context. These are
positions in the decoded text (C24), where `Spec/ErrorMarks.lean` says.
-/

namespace LibYaml

open Spec

variable {σ : Type}

/-- A position in the text, or its end, moved to a new line. -/
def Spec.InText (good : List Nat) (tail : List UInt8) (m : Mark) : Prop := IsPos good m ∨ (tail = [] ∧ m = endMark good)

/-- **C77 (order).** Take any number of calls of `yaml_parser_scan`, with any input. If the scanner has failed with an
error of its own, the context does not lie after the problem, and every token delivered ends at or before the context. -/
theorem C77_scanner_contexts_in_order (o : Oracle) (enc : Option Enc) (bytes : List UInt8) (hsize : bytes.length < maxFileSize)
    (f : Nat) (hf : bytes.length + 3 < f) (k : Nat) {c : Option String} {cm pm : Mark} {p : String}
    (h : (scanRun o f (scanStart enc bytes) k).2.error = some (.scanner c cm p pm)) :
    cm.index ≤ pm.index ∧ ∀ t, .token t ∈ (scanRun o f (scanStart enc bytes) k).1 → t.stop.index ≤ cm.index := by
  obtain ⟨good, tail, hs⟩ := exists_split (chosen enc bytes).1 (chosen enc bytes).2
  exact (orderInv_run hsize hs hf k).2 _ h _ _ _ _ rfl

/-- **C77 (scanner).** Take any number of calls of `yaml_parser_scan`, with any input. If the scanner has failed with an
error of its own, the context mark is a position in the decoded text, and so is the problem mark, or it is the end of the
text, moved to a new line (a simple key that is required, but has no `:` before the end). -/
theorem C77_scanner_errors_point_into_the_text (o : Oracle) (enc : Option Enc) (bytes : List UInt8) (hsize : bytes.length < maxFileSize)
    (f : Nat) (hf : bytes.length + 3 < f) (k : Nat) (good : List Nat) (tail : List UInt8)
    (hs : Split (chosen enc bytes).1 (chosen enc bytes).2 good tail) {c : Option String} {cm pm : Mark} {p : String}
    (h : (scanRun o f (scanStart enc bytes) k).2.error = some (.scanner c cm p pm)) :
    IsPos good cm ∧ InText good tail pm := by
  have hcs : (inputOf enc bytes good tail).cs = good ++ if tail = [] then [0] else [] := rfl
  have hno0 : ∀ c ∈ good, c ≠ 0 := fun c hc h0 => by
    have := hs.perm c hc
    subst h0
    revert this
    decide
  cases scan_inv (o := o) hsize hs hf k with
  | going D i hout _ herr next _ _ => rw [herr] at h; cases h
  | ended D j hout hend herr final _ => rw [herr] at h; cases h
  | failed D j er i hout hend herr rep next =>
    rw [herr] at h
    cases h
    obtain ⟨h1, h2⟩ := rep.2 _ _ _ _ rfl
    have spot : ∀ x, SpotIn (inputOf enc bytes good tail).cs (inputOf enc bytes good tail).bad x → IsPos good x := by
      intro x hx
      obtain ⟨a, b⟩ := hx
      rw [hcs] at a b
      refine isPos_trim a ?_
      by_cases ht : tail = []
      · have := b (by unfold inputOf; simp [ht])
        rw [if_pos ht] at this
        simp at this; omega
      · obtain ⟨u, v, hT, rfl, _⟩ := a
        rw [if_neg ht, List.append_nil] at hT
        rw [hT]
        show u.length ≤ _
        simp
    refine ⟨spot _ h1, ?_⟩
    rcases h2 with h2 | ⟨u, r, hT, rfl⟩
    · exact .inl (spot _ h2)
    · right
      rw [forceLine_markOf]
      by_cases ht : tail = []
      · refine ⟨ht, ?_⟩
        rw [hcs, if_pos ht] at hT
        have hle : u.length ≤ good.length := by
          have := congrArg List.length hT
          simp at this; omega
        have : u = good := by
          rcases Nat.lt_or_ge u.length good.length with hlt | hge
          · exfalso
            have h0 : (good ++ [0])[u.length]? = some 0 := by rw [hT]; simp
            rw [List.getElem?_append_left hlt] at h0
            exact hno0 0 (List.mem_of_getElem? h0) rfl
          · have := congrArg (List.take good.length) hT
            rw [List.take_left, List.take_append_of_le_length hge, List.take_of_length_le hle] at this
            exact this.symm
        rw [this]
      · exfalso
        rw [hcs, if_neg ht, List.append_nil] at hT
        exact hno0 0 (by rw [hT]; simp) rfl

/-- **C77 (parser).** Take any token source, any number of calls of `yaml_parser_parse`. If the parser has failed, either the
source has, on what comes after the tokens delivered so far, and the error is the source's; or the error is one of
the parser, reported where `Spec/ErrorMarks.lean` says for the tokens taken and the next one. -/
theorem C77_parser_errors_lie_on_tokens (S : TokSrc σ) (n : Int) (fuel k : Nat) (x : σ) {os : List POut} {p : Parser σ}
    (h : parseN S n fuel k (Parser.init x) = .ok (os, p)) {er : Fail} (he : p.error = some er) :
    (∃ T y, Feeds S x T y ∧ (∀ t ∈ T, t.data ≠ .streamEnd) ∧ S.next y = .error er) ∨
    ∃ T t y c cm pr pm, Feeds S x (T ++ [t]) y ∧ (∀ t ∈ T, t.data ≠ .streamEnd) ∧ er = .parser c cm pr pm ∧
      ErrorAt T t c cm pr pm := by
  have hi : PosInv [] .plain (Parser.init x).st := ⟨rfl, by simp [Parser.init], rfl⟩
  have hm : Seen S x [] (Parser.init x).st := ⟨⟨[], .nil _, rfl⟩, rfl, by simp⟩
  obtain ⟨h1, h2⟩ := pe_run hi (.inl ⟨_, hm⟩) (fun er h => by cases h) h er he
  rcases h1 with h1 | h1 | h1
  · exact .inl h1
  · exact absurd h2 h1
  · exact .inr h1

/-- What has been fed before STREAM-END are the tokens of `yaml_parser_scan`. -/
theorem feeds_scanRun {o : Oracle} {f : Nat} {enc : Option Enc} {bytes : List UInt8} {T : List Token} {y : Scanner × RS}
    (h : Feeds (scannerSrc o f) ((scanStart enc bytes).scanner, (scanStart enc bytes).input) T y)
    (hT : ∀ t ∈ T, t.data ≠ .streamEnd) :
    (scanRun o f (scanStart enc bytes) T.length).1 = T.map .token ∧ (scanRun o f (scanStart enc bytes) T.length).2.ended = false ∧
    (scanRun o f (scanStart enc bytes) T.length).2.error = none ∧
    y = ((scanRun o f (scanStart enc bytes) T.length).2.scanner, (scanRun o f (scanStart enc bytes) T.length).2.input) := by
  induction h with
  | nil => exact ⟨rfl, rfl, rfl, rfl⟩
  | @snoc ts y t z hfe hn ih =>
    obtain ⟨h1, h2, h3, h4⟩ := ih (fun t ht => hT t (by simp [ht]))
    have ht := hT t (by simp)
    rw [List.length_append]
    show (scanRun o f (scanStart enc bytes) (ts.length + 1)).1 = _ ∧ (scanRun o f (scanStart enc bytes) (ts.length + 1)).2.ended = _ ∧
      (scanRun o f (scanStart enc bytes) (ts.length + 1)).2.error = _ ∧
      _ = ((scanRun o f (scanStart enc bytes) (ts.length + 1)).2.scanner, (scanRun o f (scanStart enc bytes) (ts.length + 1)).2.input)
    simp only [scanRun]
    unfold scanCall
    rw [h2, h3]
    simp only [Bool.false_or, Option.isSome_none, Bool.false_eq_true, if_false]
    subst h4
    simp only [scannerSrc] at hn
    cases hr : onReader o (nextToken f) (scanRun o f (scanStart enc bytes) ts.length).2.scanner
        (scanRun o f (scanStart enc bytes) ts.length).2.input with
    | error e => rw [hr] at hn; cases hn
    | ok v =>
      obtain ⟨⟨t', s'⟩, st'⟩ := v
      rw [hr] at hn
      cases hn
      refine ⟨by rw [h1]; simp, ?_, rfl, rfl⟩
      simpa using ht

theorem openedToks_mem {T : List Token} : ∀ o ∈ openColls T, o ∈ T := by
  have : ∀ (T st : List Token), ∀ o ∈ T.foldl openStep st, o ∈ st ∨ o ∈ T := by
    intro T
    induction T with
    | nil => intro st o ho; exact .inl ho
    | cons t T ih =>
      intro st o ho
      rcases ih _ o ho with h | h
      · unfold openStep at h
        split at h
        · rcases List.mem_cons.mp h with rfl | h
          · exact .inr (by simp)
          · exact .inl h
        · split at h
          · exact .inl (List.mem_of_mem_tail h)
          · exact .inl h
      · exact .inr (by simp [h])
  intro o ho
  rcases this T [] o ho with h | h
  · cases h
  · exact h

/-- The marks of an error of the parser are starts of tokens, the context not after the problem. -/
theorem errorAt_marks {T : List Token} {t : Token} {c : Option String} {cm pm : Mark} {p : String} (h : ErrorAt T t c cm p pm)
    (ht : TidyToks (T ++ [t])) :
    (∃ u ∈ T ++ [t], pm = u.start) ∧ (c = none ∧ cm = {} ∨ (∃ u ∈ T ++ [t], cm = u.start) ∧ cm.index ≤ pm.index) := by
  have le : ∀ (A B : List Token) (u v : Token), TidyToks (A ++ u :: B) → v ∈ u :: B → u.start.index ≤ v.start.index := by
    intro A B u v htd hv
    rcases List.mem_cons.mp hv with rfl | hv
    · exact Nat.le_refl _
    · have h1 := htd.1 u (by simp)
      have h2 := (List.pairwise_append.mp htd.2).2.1
      exact Nat.le_trans h1 ((List.pairwise_cons.mp h2).1 v hv)
  cases h with
  | plain => exact ⟨⟨t, by simp, rfl⟩, .inl ⟨rfl, rfl⟩⟩
  | @node A ps f ctx _ hT hp hf hc =>
    subst hT
    have hmem : f ∈ ps ++ [t] := List.mem_of_mem_head? hf
    refine ⟨⟨t, by simp, rfl⟩, .inr ⟨⟨f, by rw [List.append_assoc]; exact List.mem_append_right _ hmem, rfl⟩, ?_⟩⟩
    cases hps : ps ++ [t] with
    | nil => simp at hps
    | cons u r =>
      rw [hps] at hf
      have : u = f := by simpa using hf
      subst this
      rw [List.append_assoc, hps] at ht
      exact le A r u t ht (by rw [← hps]; simp)
  | @tag A ps f u _ _ hT hp hf hu hd =>
    subst hT
    cases hps : ps with
    | nil => rw [hps] at hu; cases hu
    | cons v r =>
      rw [hps] at hf
      have : v = f := by simpa using hf
      subst this
      subst hps
      refine ⟨⟨u, List.mem_append_left _ (List.mem_append_right _ hu), rfl⟩, .inr ⟨⟨v, by simp, rfl⟩, ?_⟩⟩
      rw [List.append_assoc] at ht
      exact le A (r ++ [t]) v u ht (by simpa using .imp_right .inl (List.mem_cons.mp hu))
  | @collection q r ctx _ ho hc =>
    have hq : q ∈ T := openedToks_mem q (by rw [ho]; simp)
    refine ⟨⟨t, by simp, rfl⟩, .inr ⟨⟨q, by simp [hq], rfl⟩, ?_⟩⟩
    obtain ⟨A, B, rfl⟩ := List.append_of_mem hq
    rw [List.append_assoc, List.cons_append] at ht
    exact le A (B ++ [t]) q t ht (by simp)

/-- **C77.** For every byte string and any number of calls of `yaml_parser_parse`: if the parser has failed, then either
`yaml_parser_scan` fails on the same text with the same error, right after the tokens taken; or it is an error of the parser, reported on
tokens of the scanner as said above. In both cases, if the error is one of the scanner or of the parser, the problem mark
is a position in the decoded text, or the end of the text, moved to a new line; and so is the context mark, if there is a context. The
context does not lie after the problem, and the tokens delivered before an error of the scanner do not reach beyond its context. -/
theorem C77_errors_point_into_the_text (o : Oracle) (n : Int) (fuel : Nat) (enc : Option Enc) (bytes : List UInt8)
    (hsize : bytes.length < maxFileSize) (f : Nat) (hf : bytes.length + 3 < f) (k : Nat) (good : List Nat) (tail : List UInt8)
    (hs : Split (chosen enc bytes).1 (chosen enc bytes).2 good tail) {os : List POut} {p : Parser (Scanner × RS)}
    (h : parseBytes o n f fuel enc bytes k = .ok (os, p)) {er : Fail} (he : p.error = some er) :
    (∃ ts : List Token, (scanRun o f (scanStart enc bytes) (ts.length + 1)).1 = ts.map .token ++ [.failed] ∧
      (scanRun o f (scanStart enc bytes) (ts.length + 1)).2.error = some er ∧
      ∀ c cm pr pm, er = .scanner c cm pr pm → IsPos good cm ∧ InText good tail pm ∧ cm.index ≤ pm.index ∧
        ∀ t ∈ ts, t.stop.index ≤ cm.index) ∨
    ∃ (T : List Token) (t : Token) (c : Option String) (cm : Mark) (pr : String) (pm : Mark), er = .parser c cm pr pm ∧ (scanRun o f (scanStart enc bytes) (T.length + 1)).1 = (T ++ [t]).map .token ∧
      ErrorAt T t c cm pr pm ∧ InText good tail pm ∧ (c = none ∧ cm = {} ∨ InText good tail cm ∧ cm.index ≤ pm.index) := by
  rcases C77_parser_errors_lie_on_tokens _ n fuel k _ (show parseN _ n fuel k (Parser.init _) = _ from h) he with
    ⟨T, y, h1, h2, h3⟩ | ⟨T, t, y, c, cm, pr, pm, h1, h2, rfl, h3⟩
  · obtain ⟨k1, k2, k3, rfl⟩ := feeds_scanRun h1 h2
    have hr : onReader o (nextToken f) (scanRun o f (scanStart enc bytes) T.length).2.scanner
        (scanRun o f (scanStart enc bytes) T.length).2.input = .error er := by
      simp only [scannerSrc] at h3
      cases hr : onReader o (nextToken f) (scanRun o f (scanStart enc bytes) T.length).2.scanner
          (scanRun o f (scanStart enc bytes) T.length).2.input with
      | error e => rw [hr] at h3; cases h3; rfl
      | ok v => rw [hr] at h3; cases h3
    have hc : scanCall (onReader o) f (scanRun o f (scanStart enc bytes) T.length).2 =
        (.failed, { (scanRun o f (scanStart enc bytes) T.length).2 with error := some er }) := by
      unfold scanCall
      rw [k2, k3]
      simp only [Bool.false_or, Option.isSome_none, Bool.false_eq_true, if_false]
      rw [hr]
      simp only [k2]
    have e1 : (scanRun o f (scanStart enc bytes) (T.length + 1)).1 = T.map .token ++ [.failed] := by
      simp only [scanRun]; rw [k1, hc]
    have e2 : (scanRun o f (scanStart enc bytes) (T.length + 1)).2.error = some er := by
      simp only [scanRun]; rw [hc]
    refine .inl ⟨T, e1, e2, ?_⟩
    rintro c cm pr pm rfl
    obtain ⟨a1, a2⟩ := C77_scanner_errors_point_into_the_text o enc bytes hsize f hf _ good tail hs e2
    obtain ⟨a3, a4⟩ := C77_scanner_contexts_in_order o enc bytes hsize f hf _ e2
    exact ⟨a1, a2, a3, fun t ht => a4 t (by rw [e1]; simp [ht])⟩
  · right
    obtain ⟨D, E, hDE, k1, k2, k3⟩ := C56_tokens_are_those_of_the_scanner o enc bytes hsize hf h1
    have hE : E = [] := by
      rcases List.eq_nil_or_concat E with rfl | ⟨E', u, rfl⟩
      · rfl
      · exfalso
        obtain ⟨body, w, hD, _, hw⟩ := k3 (by simp)
        rw [List.concat_eq_append, ← List.append_assoc] at hDE
        have := (List.append_inj' hDE rfl).1
        exact h2 w (by rw [this, hD]; simp) hw
    subst hE
    rw [List.append_nil] at hDE
    subst hDE
    obtain ⟨D', rest, hD', hrest, hord, hpos⟩ := C24_positions_exact o enc bytes hsize f hf (T ++ [t]).length good tail hs
    have hDD : D' = T ++ [t] := by
      rw [k1] at hD'
      have : ∀ (A B : List Token) (r : List ScanOut), A.map ScanOut.token = B.map ScanOut.token ++ r → (∀ x ∈ r, ∀ t, x ≠ .token t) → B = A := by
        intro A
        induction A with
        | nil =>
          intro B r hab _
          cases B with
          | nil => rfl
          | cons b B => simp at hab
        | cons a A ih =>
          intro B r hab hr
          cases B with
          | nil => exact absurd rfl (hr (.token a) (by simp at hab; rw [← hab]; simp) a)
          | cons b B =>
            simp only [List.map_cons, List.cons_append, List.cons.injEq, ScanOut.token.injEq] at hab
            rw [hab.1, ih B r hab.2 hr]
      exact this _ D' rest hD' hrest
    subst hDD
    have htidy : TidyToks (T ++ [t]) := by
      refine ⟨fun t ht => ?_, hord⟩
      rcases hpos t ht with h | h
      · exact h.2.2
      · rw [h.2.2.1, h.2.2.2]; exact Nat.le_refl _
    have htext : ∀ u ∈ T ++ [t], InText good tail u.start := by
      intro u hu
      rcases hpos u hu with h | h
      · exact .inl h.1
      · exact .inr ⟨h.1, h.2.2.1⟩
    obtain ⟨⟨u, hu, rfl⟩, m2⟩ := errorAt_marks h3 htidy
    refine ⟨T, t, c, cm, pr, _, rfl, by rw [List.length_append] at k1; exact k1, h3, htext u hu, ?_⟩
    rcases m2 with m2 | ⟨⟨v, hv, rfl⟩, m3⟩
    · exact .inl m2
    · exact .inr ⟨htext v hv, m3⟩

theorem parseN_snoc {S : TokSrc σ} {n : Int} {fuel : Nat} {w : List Event} {p q r : Parser σ} (h : Evs S n fuel p w q)
    (hp : parse S n fuel q = .ok (.failed, r)) : parseN S n fuel (w.length + 1) p = .ok (w.map .event ++ [.failed], r) := by
  induction h with
  | nil => simp only [List.length_nil, parseN, hp]; rfl
  | cons h1 _ ih =>
    rw [List.length_cons]
    unfold parseN
    rw [h1]
    simp only
    rw [ih hp]
    rfl

/-- **C77 (loader).** Take any token source, any number of calls of `yaml_parser_load`. If loading has failed, then parsing has,
right after the events taken; or there was no memory; or the loader rejects the last event taken, with the report that
`Spec/ErrorMarks.lean` demands, by the events of this document before it. -/
theorem C77_loader_errors_lie_on_events (room : Nat → Bool) (S : TokSrc σ) (n : Int) (fuel m k : Nat) (x : σ) {os : List LOut} {r : Parser σ}
    (h : loadN room S n fuel m k (Parser.init x) = .ok (os, r)) {er : Fail} (he : r.error = some er) :
    (∃ w q r', Evs S n fuel (Parser.init x) w q ∧ parse S n fuel q = .ok (.failed, r') ∧ r'.error = some er) ∨ er = .memory ∨
    ∃ A ds B e q c cm pr pm, Evs S n fuel (Parser.init x) (A ++ ds :: B ++ [e]) q ∧
      (∃ v ts i, ds.data = .documentStart v ts i) ∧ (∀ b ∈ B, ofNode b.data = true) ∧ er = .composer c cm pr pm ∧
      ComposeErr B e c cm pr pm := by
  rcases loadN_errors (.inl ⟨⟨[], .nil⟩, rfl⟩) h with ⟨_, h1⟩ | ⟨er', h1, h2⟩
  · rw [he] at h1; cases h1
  · rw [he] at h1; cases h1; exact h2

/-- **C77.** For every byte string and any number of calls of `yaml_parser_load`: if loading has failed, and not for lack of
memory, then `yaml_parser_parse` fails with the same error after the events taken (and the theorem above says where that
points); or the loader rejects an event: the problem mark is its start, a position in the decoded text, or the end of the text, moved to a new line; and so is the context mark, the
start of the event that gave the anchor first, which does not lie after the problem. -/
theorem C77_loading_errors_point_into_the_text (room : Nat → Bool) (o : Oracle) (n : Int) (fuel m : Nat) (enc : Option Enc) (bytes : List UInt8)
    (hsize : bytes.length < maxFileSize) (f : Nat) (hf : bytes.length + 3 < f) (k : Nat) (good : List Nat) (tail : List UInt8)
    (hs : Split (chosen enc bytes).1 (chosen enc bytes).2 good tail) {os : List LOut} {r : Parser (Scanner × RS)}
    (h : loadBytes room o n f fuel m enc bytes k = .ok (os, r)) {er : Fail} (he : r.error = some er) :
    (∃ (w : List Event) (r' : Parser (Scanner × RS)), parseBytes o n f fuel enc bytes (w.length + 1) = .ok (w.map .event ++ [.failed], r') ∧ r'.error = some er) ∨ er = .memory ∨
    ∃ (A : List Event) (ds : Event) (B : List Event) (e : Event) (q : Parser (Scanner × RS)) (c : Option String) (cm : Mark) (pr : String) (pm : Mark),
      parseBytes o n f fuel enc bytes (A ++ ds :: B ++ [e]).length = .ok ((A ++ ds :: B ++ [e]).map .event, q) ∧
      (∃ v ts i, ds.data = .documentStart v ts i) ∧ (∀ b ∈ B, ofNode b.data = true) ∧ er = .composer c cm pr pm ∧
      ComposeErr B e c cm pr pm ∧ InText good tail pm ∧ (c = none ∧ cm = {} ∨ InText good tail cm ∧ cm.index ≤ pm.index) := by
  rcases C77_loader_errors_lie_on_events room _ n fuel m k _ (show loadN room _ n fuel m k (Parser.init _) = _ from h) he with
    ⟨w, q, r', h1, h2, h3⟩ | h1 | ⟨A, ds, B, e, q, c, cm, pr, pm, h1, h2, h3, h4, h5⟩
  · refine .inl ⟨w, r', ?_, h3⟩
    exact parseN_snoc h1 h2
  · exact .inr (.inl h1)
  · refine .inr (.inr ⟨A, ds, B, e, q, c, cm, pr, pm, h1.parseN, h2, h3, h4, h5, ?_⟩)
    obtain ⟨ts, _, _, k1, k2⟩ := C74_positions o n fuel enc bytes hsize f hf _ good tail hs h1.parseN
    rw [delivered_events] at k1 k2
    cases h5 with
    | undefined he hn => exact ⟨k2 e (by simp) _ (.inl rfl), .inl ⟨rfl, rfl⟩⟩
    | @duplicate a d he hd ha =>
      refine ⟨k2 e (by simp) _ (.inl rfl), .inr ⟨k2 d (by simp [hd]) _ (.inl rfl), ?_⟩⟩
      have := (List.pairwise_append.mp k1.2).2.2 d (by simp [hd]) e (by simp)
      exact Nat.le_trans (k1.1 d (by simp [hd])) this

/-! ### Examples -/

/-- Context and problem of an error, by their indices. -/
def errSpots : Option Fail → Option (Option String × Nat × String × Nat)
  | some (.scanner c cm p pm) => some (c, cm.index, p, pm.index)
  | some (.parser c cm p pm) => some (c, cm.index, p, pm.index)
  | some (.composer c cm p pm) => some (c, cm.index, p, pm.index)
  | _ => none

/-- The error of the parser after 16 calls. -/
def parseErr (bytes : List UInt8) : Option (Option String × Nat × String × Nat) :=
  errSpots ((parseBytes (fun _ => some 3) 1000 60 100 none bytes 16).toOption.bind (·.2.error))

/-- The error of the loader after one call. -/
def loadErr (bytes : List UInt8) : Option (Option String × Nat × String × Nat) :=
  errSpots ((loadBytes (fun _ => true) (fun _ => some 3) 1000 60 100 400 none bytes 1).toOption.bind (·.2.error))

/-- In `[a, {b: c]` the error is found at the `]`, and the context is the mapping that is still open, not the sequence. -/
example : parseErr [91, 97, 44, 32, 123, 98, 58, 32, 99, 93] =
    some (some "while parsing a flow mapping", 4, "did not find expected ',' or '}'", 9) := by decide +kernel

/-- In `x: &a !e!f b` the handle `!e!` is not defined: the problem is the tag, the context the node with its anchor. -/
example : parseErr [120, 58, 32, 38, 97, 32, 33, 101, 33, 102, 32, 98] =
    some (some "while parsing a node", 3, "found undefined tag handle", 6) := by decide +kernel

/-- An error of the scanner: after `k: v` a line with `ab`; the problem is at the end of the text, the context at `ab`. -/
example : parseErr [107, 58, 32, 118, 10, 97, 98] =
    some (some "while scanning a simple key", 5, "could not find expected ':'", 7) := by decide +kernel

/-- Errors of the loader: `[&a b, &a c]` and `[b, *a]`. -/
example : loadErr [91, 38, 97, 32, 98, 44, 32, 38, 97, 32, 99, 93] =
    some (some "found duplicate anchor; first occurrence", 1, "second occurrence", 7) := by decide +kernel

example : loadErr [91, 98, 44, 32, 42, 97, 93] = some (none, 0, "found undefined alias", 4) := by decide +kernel

/-- A report with the outer collection as context is not right: it must be the innermost one, the mapping. -/
example {m p : Mark} {d : String} (h : ErrorAt [⟨.flowSequenceStart, ⟨0, 0, 0⟩, ⟨1, 0, 1⟩⟩, ⟨.flowMappingStart, ⟨4, 0, 4⟩, ⟨5, 0, 5⟩⟩]
    ⟨.flowSequenceEnd, ⟨9, 0, 9⟩, ⟨10, 0, 10⟩⟩ (some "while parsing a flow mapping") m d p) : m.index = 4 ∧ p.index = 9 := by
  generalize hc : some "while parsing a flow mapping" = c at h
  cases h with
  | plain => cases hc
  | node hT hp hf hx => cases hc; exact absurd hx (by decide)
  | tag hT hp hf hu hd => exact absurd hc (by decide)
  | collection ho hx => cases ho; exact ⟨rfl, rfl⟩

end LibYaml
