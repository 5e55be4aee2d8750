import Verif.Proofs.StreamWrite
import Verif.Props.Pipeline

/-!
# From the written text back to the events
-/

namespace LibYaml

open Spec

/-! ### The hypotheses of the round trip -/

theorem node_events {k : Sym} {n : List EvData} (h : G k n) : ∀ e ∈ n, plainEvent e = false := by
  induction h with
  | «alias» => simp [plainEvent]
  | scalar => simp [plainEvent]
  | seq _ _ _ _ _ ih =>
    intro e he
    simp only [List.mem_append, List.mem_cons, List.not_mem_nil, or_false] at he
    rcases he with (rfl | he) | rfl
    · rfl
    · exact ih _ he
    · rfl
  | map _ _ _ _ _ ih =>
    intro e he
    simp only [List.mem_append, List.mem_cons, List.not_mem_nil, or_false] at he
    rcases he with (rfl | he) | rfl
    · rfl
    · exact ih _ he
    · rfl
  | nodesNil => simp
  | nodesCons _ _ ih1 ih2 =>
    intro e he
    rcases List.mem_append.mp he with he | he
    · exact ih1 _ he
    · exact ih2 _ he
  | pairsNil => simp
  | pairsCons _ _ _ ih1 ih2 ih3 =>
    intro e he
    rcases List.mem_append.mp he with he | he
    · exact ih1 _ he
    · rcases List.mem_append.mp he with he | he
      · exact ih2 _ he
      · exact ih3 _ he

theorem isBreak_ends {c : Nat} : isBreak c = true ↔ EndsLines c := by
  unfold isBreak EndsLines
  simp only [Bool.or_eq_true, beq_iff_eq]
  omega

theorem isBlank_eq {c : Nat} : isBlank c = true ↔ c = 0x20 ∨ c = 0x09 := by
  unfold isBlank isSpace isTab
  simp only [Bool.or_eq_true, beq_iff_eq]

theorem narrow_of {room : Int} : ∀ {start : Bool} {n : Option Nat} {v : Text},
    (start = false → n ≠ none → ∀ l r, (∀ c ∈ l, isBreak c = false) → r.head? ≠ some 0x20 → v ≠ l ++ 0x20 :: r) →
    (start = true → ∀ b l r, isBlank b = true → (∀ c ∈ l, isBreak c = false) → r.head? ≠ some 0x20 → v ≠ b :: (l ++ 0x20 :: r)) →
    (∀ a c b l r, isBlank b = true → (∀ c ∈ l, isBreak c = false) → r.head? ≠ some 0x20 → isBreak c = true → v ≠ a ++ c :: b :: (l ++ 0x20 :: r)) →
    Narrow room start n v := by
  intro start n v
  induction v generalizing start n with
  | nil => intro _ _ _; cases n <;> trivial
  | cons c cs ih =>
    intro h0 h1 h2
    have h3 : ∀ a x b l r, isBlank b = true → (∀ c ∈ l, isBreak c = false) → r.head? ≠ some 0x20 → isBreak x = true → cs ≠ a ++ x :: b :: (l ++ 0x20 :: r) := by
      rintro a x b l r hb hl hr hx rfl
      exact h2 (c :: a) x b l r hb hl hr hx rfl
    rw [narrow_cons]
    split
    · rename_i hc
      refine ih (fun h => by cases h) (fun _ b l r hb hl hr => ?_) h3
      rintro rfl
      exact h2 [] c b l r hb hl hr hc rfl
    · rename_i hc
      split
      · rename_i hs
        split
        · rename_i hb
          refine ih (fun _ _ l r hl hr => ?_) (fun h => by cases h) h3
          rintro rfl
          exact h1 hs c l r hb hl hr rfl
        · exact ih (fun _ h => absurd rfl h) (fun h => by cases h) h3
      · rename_i hs
        have hs : start = false := by simpa using hs
        cases n with
        | none => exact ih (fun _ h => absurd rfl h) (fun h => by cases h) h3
        | some k =>
          refine ⟨fun hx => ?_, ih (fun _ _ l r hl hr => ?_) (fun h => by cases h) h3⟩
          · exfalso
            simp only [Bool.and_eq_true, Bool.not_eq_true'] at hx
            have hc : c = 0x20 := by simpa [isSpace] using hx.1
            subst hc
            refine h0 hs (by simp) [] cs (by simp) ?_ rfl
            cases cs with
            | nil => simp
            | cons d cs =>
              have h2 := hx.2
              simp only [nextC, isSpace, beq_eq_false_iff_ne] at h2
              simpa using h2
          · rintro rfl
            refine h0 hs (by simp) (c :: l) r ?_ hr rfl
            intro x hx
            rcases List.mem_cons.mp hx with rfl | hx
            · simpa using hc
            · exact hl x hx

theorem noBlankLine_of {v : Text} (h : ¬ FoldableIndented v) : NoBlankLine v := by
  have hl' : ∀ l : Text, (∀ c ∈ l, isBreak c = false) → ∀ c ∈ l, ¬ EndsLines c := fun l hl c hc he => by
    rw [← isBreak_ends, hl c hc] at he
    cases he
  intro room
  refine narrow_of (fun h => by cases h) (fun _ b l r hb hl hr => ?_) (fun a c b l r hb hl hr hc => ?_)
  · rintro rfl
    exact h ⟨b, l, r, isBlank_eq.mp hb, hl' l hl, hr, .inl rfl⟩
  · rintro rfl
    exact h ⟨b, l, r, isBlank_eq.mp hb, hl' l hl, hr, .inr ⟨a, c, isBreak_ends.mp hc, rfl⟩⟩

theorem tagFit_of {T : List TagDir} {t : Option Text} (h : TagWritable T t) : TagFit T t := by
  intro x hx
  obtain ⟨h1, h2⟩ := h x hx
  refine ⟨h1, fun d hd r hr c hc => ?_⟩
  have := h2 d hd r hr c hc
  unfold flowInd
  omega

theorem eventFit_of {T : List TagDir} {e : EvData} (h : Writable T e) : EventFit T e := by
  cases e with
  | scalar a t v p q st => exact ⟨tagFit_of h.1, h.2.1, fun hs => noBlankLine_of (h.2.2 hs)⟩
  | sequenceStart => exact tagFit_of h
  | mappingStart => exact tagFit_of h
  | _ => trivial

theorem fitDocs_of {canonical : Bool} {ds : List EvData} (hd : GDocs ds) : ∀ {pre post : List EvData}, (∀ e ∈ ds, GoodEvent canonical e) →
    (∀ T e, Under (pre ++ (ds ++ post)) T e → Writable T e) → FitDocs canonical ds := by
  induction hd with
  | nil => intro _ _ _ _; exact .nil
  | @cons d w hd _ ih =>
    intro pre post hg hw
    obtain ⟨v, ts, i, n, j, hG, rfl⟩ := hd
    have e : (EvData.documentStart v ts i :: n ++ [.documentEnd j]) ++ w = .documentStart v ts i :: (n ++ .documentEnd j :: w) := by simp
    have hds : GoodEvent canonical (.documentStart v ts i) := hg _ (by simp)
    rw [e] at hw ⊢
    refine .cons hG hds.1 hds.2 (hw ts (.documentStart v ts i) ⟨pre, v, i, _, rfl, .inl rfl⟩) (fun x hx => ⟨hg x (by simp [hx]), ?_⟩) ?_
    · obtain ⟨b, c, rfl⟩ := List.append_of_mem hx
      refine eventFit_of (hw ts x ⟨pre, v, i, _, rfl, .inr ⟨b, c ++ .documentEnd j :: w ++ post, by simp, fun k hk => ?_⟩⟩)
      have := node_events hG (.documentEnd k) (by simp [hk])
      cases this
    · refine ih (pre := pre ++ .documentStart v ts i :: (n ++ [.documentEnd j])) (post := post) (fun x hx => hg x (by simp [hx])) fun T x hx => hw T x ?_
      simpa using hx

theorem Spec.Readable.fit {canonical : Bool} {enc : Option Enc} {ds : List EvData} (h : Readable canonical (.streamStart enc :: (ds ++ [.streamEnd]))) (hd : GDocs ds) : FitStream canonical ds := by
  refine ⟨fitDocs_of hd (pre := [.streamStart enc]) (post := [.streamEnd]) (fun e he => h.good e (by simp [he])) (by simpa using h.writable), ?_⟩
  rintro i n j r rfl hG hb ⟨t, q, st, hst, rfl⟩
  obtain ⟨rfl, rfl⟩ : i = true ∧ canonical = false := by
    cases i <;> cases canonical <;> simp_all [bareDoc]
  exact h.root rfl ⟨enc, t, q, st, _, hst, rfl⟩

/-! ### Counting tokens -/

theorem props_noEnd {tags : List TagDir} {p : List TokData} {a t : Option Text} (h : Properties tags p a t) : TokData.streamEnd ∉ p := by
  cases h <;> simp

theorem gram_noEnd {v : Variant} {tags : List TagDir} {n : Nt} {ts : List TokData} {evs : List EvData} (h : Gram v tags n ts evs) : TokData.streamEnd ∉ ts := by
  induction h with
  | itemPairLost _ h _ ih => rcases h with rfl | rfl <;> simpa using ih
  | scalar _ _ h => simpa using props_noEnd h
  | empty h => exact props_noEnd h
  | flowSequence h _ ih => simpa [props_noEnd h] using ih
  | flowMapping h _ ih => simpa [props_noEnd h] using ih
  | blockSequence h _ ih => simpa [props_noEnd h] using ih
  | blockMapping h _ ih => simpa [props_noEnd h] using ih
  | indentless h _ _ ih => simpa [props_noEnd h] using ih
  | _ => simp_all

/-- The end of the stream comes last. -/
def EndsOnce (ts : List TokData) : Prop := ∃ l, ts = l ++ [.streamEnd] ∧ TokData.streamEnd ∉ l

theorem EndsOnce.after {a ts : List TokData} (h : EndsOnce ts) (ha : TokData.streamEnd ∉ a) : EndsOnce (a ++ ts) := by
  obtain ⟨l, rfl, h⟩ := h
  exact ⟨a ++ l, by simp, by simp [ha, h]⟩

theorem docs_end {v : Variant} {ts : List TokData} {evs : List EvData} (h : Docs v ts evs) : EndsOnce ts := by
  induction h with
  | done => exact ⟨[], rfl, by simp⟩
  | doc k hd hg _ ih =>
    refine ih.after ?_
    intro hm
    simp only [List.mem_append, List.mem_cons] at hm
    rcases hm with (hm | hm | hm) | hm
    · rcases hd.1 _ hm with ⟨_, h⟩ | ⟨_, h⟩ <;> cases h
    · cases hm
    · exact gram_noEnd hg hm
    · cases (List.mem_replicate.mp hm).2

theorem stream_end {v : Variant} {ts : List TokData} {evs : List EvData} (h : Spec.Stream v ts evs) : EndsOnce ts := by
  cases h with
  | explicit enc h => exact (docs_end h).after (a := [_]) (by simp)
  | implicit enc k hg h =>
    refine (docs_end h).after ?_
    intro hm
    simp only [List.mem_append, List.mem_cons] at hm
    rcases hm with (hm | hm) | hm
    · cases hm
    · exact gram_noEnd hg hm
    · cases (List.mem_replicate.mp hm).2

theorem feeds_left {σ : Type} {S : TokSrc σ} {left : σ → Nat} (hB : Bounded S left) {x y : σ} {toks : List Token} (h : Feeds S x toks y) (hn : TokData.streamEnd ∉ toks.map Token.data) :
    toks.length + left y ≤ left x := by
  induction h with
  | nil => simp
  | snoc _ hn' ih =>
    simp only [List.map_append, List.map_cons, List.map_nil, List.mem_append, List.mem_singleton, not_or] at hn
    have := hB.lt _ _ _ hn' (fun h => hn.2 h.symm)
    have := ih hn.1
    simp only [List.length_append, List.length_singleton]
    omega

theorem feeds_count {σ : Type} {S : TokSrc σ} {left : σ → Nat} (hB : Bounded S left) {x y : σ} {toks : List Token} (h : Feeds S x toks y) (hn : EndsOnce (toks.map Token.data)) :
    toks.length ≤ left x + 1 := by
  obtain ⟨l, h1, h2⟩ := hn
  cases h with
  | nil => simp
  | snoc h _ =>
    rw [List.map_append] at h1
    obtain ⟨rfl, _⟩ := List.append_inj' h1 rfl
    have := feeds_left hB h h2
    simp only [List.length_append, List.length_singleton]
    omega

/-! ### Parsing -/

theorem StreamOut.parse {w : List EvData} {t : Text} (h : StreamOut w t) {e : Option Enc} {o : Oracle} (ho : NoFail o) {n : Int} {enc : Option Enc} {bytes : List UInt8} {f fuel : Nat}
    (hsize : bytes.length < maxFileSize) (hd : Decodes (chosen enc bytes).1 (chosen enc bytes).2 t) (hf : bytes.length + 3 < f) (hfuel : 4 * bytes.length + 7 < fuel)
    (hshort : bytes.length < maxInt) (hn2 : 2 ≤ n) (hn3 : n ≤ maxInt) (hdeep : ∀ h, Deep h w → (h : Int) < n) :
    ∃ (es : List Event) (p : _), parseBytes o n f fuel enc bytes (w.length + 2) = .ok (es.map .event, p) ∧ p.error = none ∧ p.st.state = .done ∧
      List.Forall₂ Alike (.streamStart e :: (w ++ [.streamEnd])) (es.map Event.data) := by
  obtain ⟨hh, toks, k1, k2, k3⟩ := h
  have hs := decodes_split hd
  have hT := inputOf_length (enc := enc) (bytes := bytes) hs
  have hin : inputOf enc bytes t [] = { cs := t ++ [0] } := by unfold inputOf; rfl
  rw [hin] at hT
  have hT' : (t ++ [0]).length ≤ bytes.length + 1 := hT
  have h0 : OnText (t ++ [0]) ({ enc := (chosen enc bytes).1 }, { cs := t ++ [0] })
      ((scanStart enc bytes).scanner, (scanStart enc bytes).input) := by
    refine ⟨rfl, ?_, rfl, ?_⟩
    · have := rel_init enc bytes t [] hsize hs
      rwa [hin] at this
    · exact .inl ⟨[], .fresh rfl ⟨⟨⟨[], rfl, rfl, by rintro ⟨h, _⟩; cases h⟩, rfl, by simp, by simp⟩, rfl⟩⟩
  let C : Cx := { T := t ++ [0], f := f, B := (n - 1).toNat, enc := (chosen enc bytes).1, fuel := by omega, short := by omega, low := by omega }
  have hdh := hdeep _ k1
  obtain ⟨tk, g1, ⟨y, g2⟩, g3⟩ := k3 C rfl (show 1 ≤ (n - 1).toNat by omega) (show hh ≤ (n - 1).toNat by omega)
  obtain ⟨evs, m1, m2⟩ := k2 e (chosen enc bytes).1
  obtain ⟨σ, S, R, left, x, hS, hB, hR, hx, hfun, hl⟩ := pipeline_source (enc := enc) o hsize hf
  have hsim := text_sim (T := t ++ [0]) (f := f) ho (by omega)
  obtain ⟨y1, q1, q2⟩ := feeds_sim hsim h0 g2
  obtain ⟨x1, q3, q4⟩ := feeds_sim_back hR hx q2
  have hlim : BelowLimit S x n := by
    intro ts z hz
    obtain ⟨z1, r1, r2⟩ := feeds_sim hR hx hz
    obtain ⟨z2, r3, r4⟩ := feeds_sim_back hsim h0 r2
    have := g3 _ _ r4
    rw [(hR _ _ r1).1, ← (hsim _ _ r3).1]
    have : (textSrc f).depth z2 ≤ (n - 1).toNat := this
    omega
  rw [← g1] at m1
  have hcount := feeds_count hB q4 (stream_end m1)
  obtain ⟨es, p, u1, u2, u3, u4⟩ := C53_complete hS n fuel x hlim q4 (by omega) m1
  have hps := parseN_sim hR n fuel evs.length (Parser.init x) _ hx
  rw [u2] at hps
  obtain ⟨y2, _, v2⟩ := hps.ok
  have hlen : w.length + 2 = evs.length := by
    have := m2.length_eq
    simpa using this
  refine ⟨es, p.over y2, ?_, ?_, ?_, by rw [u1]; exact m2⟩
  · rw [hlen]; exact v2
  · exact u3
  · exact u4

end LibYaml
