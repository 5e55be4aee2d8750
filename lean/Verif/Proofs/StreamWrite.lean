import Verif.Proofs.DocWrite

/-!
# The whole stream: the text that is written, and the tokens it is read as
-/

namespace LibYaml

open Spec

variable {C : Cx}

/-! ### The beginning of the stream -/

/-- The state behind STREAM-START. -/
structure Began (s s' : Emitter) : Prop where
  apart : ∃ lb, Apart lb s'.core
  lined : Lined s'.core s'
  state : s'.state = .firstDocumentStart
  canonical : s'.canonical = s.canonical
  ended : s'.openEnded = 0

/-- The encoding the emitter uses: the one set, or that of the event, or UTF-8. -/
def usedEnc (s : Emitter) (enc : Option Enc) : Enc := (s.encoding.or enc).getD .utf8

/-- The mark written in front of everything else. -/
def markOf (e : Enc) : Text := if e = .utf8 then [] else [0xFEFF]

theorem tw_streamStart {s : Emitter} {enc : Option Enc} (ht : s.tags = []) (hf : s.flowLevel = 0) {Q : Unit → Text → Emitter → Prop}
    (hQ : ∀ s', Began s s' → Q () (markOf (usedEnc s enc)) s') : tw (emitStreamStart (.streamStart enc)) Q s := by
  unfold emitStreamStart
  rw [tw_bind, tw_modE]
  simp only []
  rw [tw_bind, tw_modE, tw_bind, tw_getE, tw_bind, tw_whenE]
  have hb : ∀ x : Int, 2 ≤ (if x < 2 ∨ x > 9 then (2 : Int) else x) ∧ (if x < 2 ∨ x > 9 then (2 : Int) else x) ≤ 9 := by
    intro x; split <;> omega
  unfold writeBom
  split
  · rename_i h
    rw [tw_outE, tw_setState]
    have he : usedEnc s enc ≠ .utf8 := by
      intro h'
      have h2 : (Emitter.normalize { s with openEnded := 0 } enc).encoding = some (usedEnc s enc) := rfl
      rw [show (_ : Emitter).encoding = some (usedEnc s enc) from h2, h'] at h
      cases h
    have e : markOf (usedEnc s enc) = [0xFEFF] := by simp [markOf, he]
    rw [e] at hQ
    exact hQ _ ⟨⟨_, rfl, hb s.bestIndent, ht, rfl, hf⟩, ⟨rfl, rfl, rfl, rfl⟩, rfl, rfl, rfl⟩
  · rename_i h
    rw [tw_setState]
    have he : usedEnc s enc = .utf8 := by
      have h2 : (Emitter.normalize { s with openEnded := 0 } enc).encoding = some (usedEnc s enc) := rfl
      rw [show (_ : Emitter).encoding = some (usedEnc s enc) from h2] at h
      simpa using h
    have e : markOf (usedEnc s enc) = [] := by simp [markOf, he]
    rw [e] at hQ
    exact hQ _ ⟨⟨_, rfl, hb s.bestIndent, ht, rfl, hf⟩, ⟨rfl, rfl, rfl, rfl⟩, rfl, rfl, rfl⟩

/-! ### Reading the stream -/

/-- The text up to the end of the input. -/
theorem Home.finish {ds : List TokData} {al : Bool} {u : Text} (h : Home C ds al u [0]) (hB : 1 ≤ C.B) :
    ∃ toks, toks.map Token.data = ds ++ [.streamEnd] ∧ (∃ y, Feeds (textSrc C.f) ({ enc := C.enc }, { cs := C.T }) toks y) ∧
      ∀ toks y, Feeds (textSrc C.f) ({ enc := C.enc }, { cs := C.T }) toks y → (textSrc C.f).depth y ≤ C.B := by
  obtain ⟨X, h1, h2, _, h3, h4, h5, h6, _⟩ := h.ready hB
  have := h1.finish h2 h4 h3 trivial h5
  rwa [h6] at this

/-- What the stream leaves behind: the text without the mark is read as tokens that stand for the events. -/
def StreamOut (w : List EvData) (t : Text) : Prop :=
  ∃ h toks, Deep h w ∧
    (∀ e enc, ∃ evs, Spec.Stream .implemented (.streamStart enc :: (toks ++ [.streamEnd])) evs ∧ List.Forall₂ Alike (.streamStart e :: (w ++ [.streamEnd])) evs) ∧
    ∀ C : Cx, C.T = t ++ [0] → 1 ≤ C.B → h ≤ C.B → ∃ tk, tk.map Token.data = .streamStart C.enc :: (toks ++ [.streamEnd]) ∧
      (∃ y, Feeds (textSrc C.f) ({ enc := C.enc }, { cs := C.T }) tk y) ∧
      ∀ tk y, Feeds (textSrc C.f) ({ enc := C.enc }, { cs := C.T }) tk y → (textSrc C.f).depth y ≤ C.B

theorem cx_start (hT : ∃ t, C.T = t ++ [0]) : Raw C (View.home [.streamStart C.enc] true) [] C.T :=
  Raw.start (by obtain ⟨t, h⟩ := hT; rw [h]; simp)

/-- Every document has a marker. -/
theorem DocsOut.stream {w : List EvData} {t : Text} (h : DocsOut false w t) : StreamOut w t := by
  obtain ⟨h, b, toks, evs, k1, k2, k3, k4⟩ := h
  obtain rfl := k1.mark rfl
  refine ⟨h, toks, k2, fun e enc => ⟨_, .explicit enc k3, .cons (.streamStart _ _) k4⟩, fun C hT hB hh => ?_⟩
  have h0 := (cx_start ⟨_, hT⟩).home (by rw [hT]; exact k1.start) rfl
  rw [hT] at h0
  obtain ⟨al, h1⟩ := k1.scan hB hh h0
  simpa [endTokens] using h1.finish hB

/-- The first document has no marker. -/
theorem stream_bare {lb : Break} {c : Core} {s s' : Emitter} {i j oe : Bool} {v : Option Version} {ts : List TagDir} {n w : List EvData} {t u : Text} (ho : DocOut lb c true s v ts i n j t s')
    (hb : bareDoc c.canonical true v ts i = true) (hG : G .node n) (hn : ¬ Bare n) (hj : oe = j) (hr : DocsOut oe w u) : StreamOut (.documentStart v ts i :: (n ++ .documentEnd j :: w)) (t ++ u) := by
  obtain ⟨h', b', toks', evs', k1, k2, k3, k4⟩ := hr
  have hnext : OkNext j (u ++ [0]) := by
    unfold OkNext
    split
    · exact k1.line (by rw [hj]; assumption)
    · exact k1.start
  obtain ⟨al, h, tk, x, brx, m, rfl, g1, g2, g3, g4, _⟩ := ho
  obtain ⟨rfl, rfl⟩ : v = none ∧ ts = [] := by
    cases v <;> cases ts <;> simp_all [bareDoc]
  rcases g4 with ⟨_, rfl, rfl⟩ | ⟨e, _⟩
  swap
  · rw [hb] at e; cases e
  rcases g3 with ⟨_, g3⟩ | ⟨evs, m1, m2⟩
  · exact absurd g3 hn
  refine ⟨max h h', tk ++ endTokens (!j) ++ endTokens b' ++ toks', ?_, fun e enc => ?_, fun C hT hB hh => ?_⟩
  · exact Spec.Deep.right (a := [.documentStart none [] i]) (Spec.Deep.max (g2.left _) (Spec.Deep.right (Spec.Deep.right (a := [.documentEnd j]) k2 rfl) (level_zero hG))) rfl
  · refine ⟨.streamStart (some enc) :: .documentStart none [] true :: evs ++ .documentEnd (((if (!j) = true then 1 else 0) + (if b' = true then 1 else 0)) == 0) :: evs', ?_, ?_⟩
    · have := Spec.Stream.implicit (v := .implemented) enc ((if (!j) = true then 1 else 0) + (if b' = true then 1 else 0)) m1 k3
      rw [← replicate_ends] at this
      simpa only [List.append_assoc, List.cons_append] using this
    · refine .cons (.streamStart _ _) (.cons (.documentStart _ _ _ _) ?_)
      show List.Forall₂ Alike ((n ++ _) ++ [_]) (evs ++ _)
      rw [List.append_assoc]
      exact forall2_append m2 (.cons (.documentEnd _ _) k4)
  · have h0 := cx_start (C := C) ⟨_, hT⟩
    rw [hT] at h0
    obtain ⟨al, h1⟩ := scan_root hB (j := j) (r := u ++ [0]) g1 (Nat.le_trans (Nat.le_max_left _ _) hh) hnext (fun _ => ⟨rfl, rfl⟩) (by simpa [dotLine, dirLines, tagLines] using h0)
    obtain ⟨al, h2⟩ := k1.scan hB (Nat.le_trans (Nat.le_max_right _ _) hh) h1
    simpa only [List.append_assoc, List.cons_append, List.nil_append] using h2.finish hB

/-! ### Writing the stream -/

/-- A stream that can be written and read back. -/
structure FitStream (canonical : Bool) (w : List EvData) : Prop where
  docs : FitDocs canonical w
  root : ∀ i n j r, w = .documentStart none [] i :: (n ++ .documentEnd j :: r) → G .node n → bareDoc canonical true none [] i = true → ¬ Bare n

theorem writes_stream {s : Emitter} {enc : Option Enc} {w : List EvData} {R : Text → Emitter → Prop} (hw : FitStream s.canonical w) (ht : s.tags = []) (hf : s.flowLevel = 0)
    (hs : s.state = .streamStart) (hR : ∀ t s', StreamOut w t → R (markOf (usedEnc s enc) ++ t) s') : Writes (.streamStart enc :: (w ++ [.streamEnd])) R s := by
  refine Writes.step (fun h => by cases h) fun q _ => ?_
  unfold analyzeEvent
  rw [tw_bind, tw_modE, tw_bind, tw_getE]
  simp only []
  show WritesFrom _ _ _ _
  unfold WritesFrom emitterStep
  rw [tw_bind, tw_getE]
  simp only [hs]
  refine tw_streamStart (by exact ht) (by exact hf) fun s1 h1 => ?_
  obtain ⟨lb, hap⟩ := h1.apart
  obtain ⟨hd, hroot⟩ := hw
  have hc1 : s1.canonical = s.canonical := h1.canonical
  rw [← hc1] at hd hroot
  cases hd with
  | nil =>
    refine writes_docs (first := true) .nil hap h1.lined rfl h1.state (fun _ _ _ _ _ h => by cases h) fun t s' h2 => ?_
    rw [h1.ended] at h2
    exact hR _ _ h2.stream
  | @cons v ts i n j r hG hv hg hp hn hrest =>
    cases hb : bareDoc s1.canonical true v ts i with
    | false =>
      refine writes_docs (first := true) (.cons hG hv hg hp hn hrest) hap h1.lined rfl h1.state (fun _ v' ts' i' r' h => ?_) fun t s' h2 => ?_
      · cases h; exact hb
      · rw [h1.ended] at h2
        exact hR _ _ h2.stream
    | true =>
      have e : (EvData.documentStart v ts i :: (n ++ .documentEnd j :: r)) ++ [.streamEnd] = (.documentStart v ts i :: (n ++ [.documentEnd j])) ++ (r ++ [.streamEnd]) := by simp
      rw [e]
      refine Writes.append (writes_doc (first := true) hG hv hg hn hap h1.lined h1.state fun t s2 ho => ?_)
      obtain ⟨_, _, _, _, _, _, _, _, _, _, _, k4, k5, k6⟩ := id ho
      refine writes_docs (lb := lb) (c := { s1.core with state := .documentStart }) (first := false) hrest ⟨hap.line, hap.best, hap.tags, hap.indent, hap.level⟩ k4
        (congrArg Core.canonical k4.core) rfl (fun h => by cases h) fun u s3 hu => hR _ _ ?_
      obtain ⟨rfl, rfl⟩ : v = none ∧ ts = [] := by
        cases v <;> cases ts <;> simp_all [bareDoc]
      refine stream_bare ho hb hG (hroot _ _ _ _ rfl hG hb) ?_ hu
      cases j with
      | true => simpa using k6 rfl
      | false => simpa using k5 rfl

end LibYaml
