import Verif.Proofs.ScalarWrite

/-!
# Scalar nodes

`yaml_emitter_emit_scalar`: properties and text of a scalar, and the tokens the scanner makes of them.
-/

namespace LibYaml

open Spec

/-- Properties without a scalar in a block collection. -/
theorem LeafScan.propBlock {pi ind : Int} {lb : Break} {b : Text} {ts : List TokData} (hs : LeafScan false ind lb 0 (fun br => br && !false) PropFol b ts)
    (hi : pi < ind) : LeafBlock pi lb 0 (fun br k t => br = true ∧ Dedent pi k t) b ts := by
  refine ⟨hs.start, fun {C X u a br k t} hb hfl hpi hcol hks ha ht hfo hB => ?_⟩
  obtain ⟨rfl, hfo⟩ := hfo
  obtain ⟨a', e, ha'⟩ := touch_one hks ha
  have hv : ∀ x ∈ X.ks, x.Vague := by
    rw [hks]
    intro x hx
    rw [List.mem_singleton.mp hx]
    exact ha.vague
  have g := hs.scan hb (by rw [hfl]; rfl) (by omega) (fun _ => by omega) (fun _ => free_of (by rw [hks]; simp) hv) (save_le fun _ => by omega)
    (fun w _ x hx => (touch_vague hv x hx).fresh) ht (.inl rfl) hB
  rw [e, List.map_cons, List.map_nil, ha'.gone (lineBreaks_gap hs.start)] at g
  exact g

/-- What a scalar node leaves behind. -/
inductive ScalarOut (T : List TagDir) (lb : Break) (flow : Bool) (ind : Int) (a t : Option Text) (v : Text) (p q : Bool) (st : ScalarStyle) (s : Emitter) (x : Text) (s' : Emitter) : Prop
  | ink {b tk al st' t'} : x = lead s ++ b → LeafScan flow ind lb 0 al (Fol flow) b (tk ++ [.scalar v st']) → (flow = false → al true = true) →
      Properties T tk a t' → TagRel t t' p q st' → (s.simpleKeyContext = true → Inline v → NoBreaks b ∧ b.length ≤ 20 + 3 * s.propLen + 4 * byteLen v) →
      s'.whitespace = false → s'.indention = false → ScalarOut T lb flow ind a t v p q st s x s'
  | none : flow = false → s.simpleKeyContext = false → s.canonical = false → v = [] → x = [] → a = none → p = true → st = .any ∨ st = .plain →
      s'.whitespace = false → s'.indention = false → ScalarOut T lb flow ind a t v p q st s x s'
  | empty {b tk t'} : flow = false → s.simpleKeyContext = false → v = [] → x = lead s ++ b → PropText T lb a t' b tk → TagRel t t' p q .plain →
      s'.whitespace = false → s'.indention = false → ScalarOut T lb flow ind a t v p q st s x s'
  | block {b tk fol st' t'} : flow = false → s.simpleKeyContext = false → x = lead s ++ b → LeafBlock s.indent lb 0 fol b (tk ++ [.scalar v st']) →
      Properties T tk a t' → TagRel t t' p q st' → (∀ k r, Dedent s.indent k r → fol (openLine v) k r) →
      (openLine v = false → EndsLine b ∧ s'.indention = true ∧ s'.whitespace = true ∧ s'.column = 0) → (openLine v = true → s'.indention = false) →
      ScalarOut T lb flow ind a t v p q st s x s'

theorem tw_popIndent {s : Emitter} {i : Int} {is : List Int} (h : s.indents = i :: is) {Q : Unit → Text → Emitter → Prop} :
    tw popIndent Q s ↔ Q () [] { s with indent := i, indents := is } := by
  unfold tw popIndent
  rw [h]
  exact Iff.rfl

theorem tw_popState {s : Emitter} {x : EState} {xs : List EState} (h : s.states = x :: xs) {Q : Unit → Text → Emitter → Prop} :
    tw popStateE Q s ↔ Q () [] { s with state := x, states := xs } := by
  unfold tw popStateE
  rw [h]
  exact Iff.rfl

theorem tw_pushState {s : Emitter} {x : EState} {Q : Unit → Text → Emitter → Prop} : tw (pushStateE x) Q s ↔ Q () [] { s with states := x :: s.states } := Iff.rfl

theorem tw_increaseIndent {s : Emitter} {f i : Bool} {Q : Unit → Text → Emitter → Prop} :
    tw (increaseIndent f i) Q s ↔ Q () [] { s with indents := s.indent :: s.indents, indent := s.deeper f i } := Iff.rfl

theorem tw_setState {s : Emitter} {x : EState} {Q : Unit → Text → Emitter → Prop} : tw (setStateE x) Q s ↔ Q () [] { s with state := x } := Iff.rfl

/-- The part of a scalar node behind the properties. -/
theorem tw_scalarTail {s : Emitter} {x : EState} {xs : List EState} (hx : s.states = x :: xs) {Q : Unit → Text → Emitter → Prop}
    (h : tw processScalar (fun _ t s' => Kin { s with indents := s.indent :: s.indents, indent := s.deeper true false } s' ∧
      Q () t { s' with indent := s.indent, indents := s.indents, state := x, states := xs }) { s with indents := s.indent :: s.indents, indent := s.deeper true false }) :
    tw (do increaseIndent true false; processScalar; popIndent; popStateE) Q s := by
  rw [tw_bind, tw_increaseIndent, tw_bind]
  refine tw_mono h fun _ t s' h' => ?_
  obtain ⟨hk, h'⟩ := h'
  unfold Kin at hk
  rw [tw_bind, tw_popIndent (i := s.indent) (is := s.indents) (by rw [hk]), tw_popState (x := x) (xs := xs) (by rw [hk]; exact hx)]
  simpa using h'

theorem lead_false {s : Emitter} (h : s.whitespace = false) : lead s = [32] := by
  unfold lead
  rw [h]; rfl

/-- Text with properties in front of it. -/
theorem prop_lead {T : List TagDir} {lb : Break} {a t : Option Text} {s s1 s2 : Emitter} {x b : Text} (hx : PropOut T lb a t s x s1) (h2 : s2.whitespace = s1.whitespace) :
    (x = [] ∧ a = none ∧ t = none ∧ s1 = s ∧ x ++ (lead s2 ++ b) = lead s ++ b) ∨
      ∃ b1 tk, PropText T lb a t b1 tk ∧ b1.length ≤ 5 + 3 * s.propLen ∧ x ++ (lead s2 ++ b) = lead s ++ (b1 ++ 32 :: b) := by
  rcases hx with ⟨rfl, h3, h4, h5⟩ | ⟨b1, tk, rfl, h3, h4, _, h6, _⟩
  · refine .inl ⟨rfl, h3, h4, h5, ?_⟩
    unfold lead
    rw [h2, h5]; rfl
  · refine .inr ⟨b1, tk, h3, h4, ?_⟩
    rw [lead_false (h2.trans h6)]
    simp

section

variable {T : List TagDir} {lb : Break} {flow : Bool} {ind : Int} {a t t' : Option Text} {v : Text} {p q : Bool} {st st' : ScalarStyle} {s s0 s1 s2 s3 s' : Emitter} {y u : Text}

theorem ink_out (hy : PropOut T lb a t' s0 y s1) (hw0 : s0.whitespace = s.whitespace) (hlen : s0.propLen ≤ s.propLen + 1) (hw : s2.whitespace = s1.whitespace)
    (g3 : TagRel t t' p q st') (ho : InkOut flow ind lb v st' (!s.simpleKeyContext) s2 u s3) (h1 : s'.whitespace = s3.whitespace) (h2 : s'.indention = s3.indention) :
    ScalarOut T lb flow ind a t v p q st s (y ++ u) s' := by
  obtain ⟨b, al, rfl, o1, o2, o3, o4, o5, o6⟩ := ho
  have hl : lead s0 = lead s := by unfold lead; rw [hw0]
  rcases prop_lead (b := b) hy hw with ⟨e1, e2, e3, e4, e5⟩ | ⟨b1, tk, e1, e2, e3⟩
  · refine .ink (b := b) (tk := []) (al := al) (st' := st') (t' := t') (by rw [e5, hl]) o1 o2 (by rw [e2, e3]; exact .none) g3 (fun h1 h2 => ?_) (h1.trans o5) (h2.trans o6)
    obtain ⟨k1, k2⟩ := o3 (by rw [h1]; rfl) h2
    exact ⟨k1, by omega⟩
  · refine .ink (b := b1 ++ 32 :: b) (tk := tk) (al := al) (st' := st') (t' := t') (by rw [e3, hl]) ((e1.scan _ _).comp e1.line o1) o2 e1.props g3 (fun h1 h2 => ?_)
      (h1.trans o5) (h2.trans o6)
    obtain ⟨k1, k2⟩ := o3 (by rw [h1]; rfl) h2
    refine ⟨noBreaks_append e1.line (fun c hc => ?_), ?_⟩
    · rcases List.mem_cons.mp hc with rfl | hc
      · decide
      · exact k1 c hc
    · simp only [List.length_append, List.length_cons]
      omega

theorem blk_out (hy : PropOut T lb a t' s0 y s1) (hw0 : s0.whitespace = s.whitespace) (hw : s2.whitespace = s1.whitespace) (hfl : flow = false) (hsk : s.simpleKeyContext = false)
    (g3 : TagRel t t' p q st') (ho : BlkOut s.indent lb v st' s2 u s3) (h1 : s'.whitespace = s3.whitespace) (h2 : s'.indention = s3.indention) (h3 : s'.column = s3.column) :
    ScalarOut T lb flow ind a t v p q st s (y ++ u) s' := by
  obtain ⟨b, fol, rfl, o1, o2, o3, o4, o5⟩ := ho
  have hl : lead s0 = lead s := by unfold lead; rw [hw0]
  rcases prop_lead (b := b) hy hw with ⟨e1, e2, e3, e4, e5⟩ | ⟨b1, tk, e1, e2, e3⟩
  · refine .block (b := b) (tk := []) (fol := fol) (st' := st') (t' := t') hfl hsk (by rw [e5, hl]) o1 (by rw [e2, e3]; exact .none) g3 o2 (fun h => ?_) (fun h => h2.trans (o4 h))
    obtain ⟨k1, k2, k3, k4⟩ := o3 h
    exact ⟨k1, h2.trans k2, h1.trans k3, h3.trans k4⟩
  · refine .block (b := b1 ++ 32 :: b) (tk := tk) (fol := fol) (st' := st') (t' := t') hfl hsk (by rw [e3, hl])
      ((e1.scan false (s.indent + 1)).compBlock e1.line (by omega) o1) e1.props g3 o2 (fun h => ?_) (fun h => h2.trans (o4 h))
    obtain ⟨k1, k2, k3, k4⟩ := o3 h
    exact ⟨(k1.cons _).append _, h2.trans k2, h1.trans k3, h3.trans k4⟩

theorem none_out (hy : PropOut T lb a t' s0 y s1) (hw0 : s0.whitespace = s.whitespace) (hfl : flow = false) (hsk : s.simpleKeyContext = false) (hc : s.canonical = false)
    (hv : v = []) (hst : st = .any ∨ st = .plain) (g3 : TagRel t t' p q .plain) (h1 : s'.whitespace = false) (h2 : s'.indention = false) :
    ScalarOut T lb flow ind a t v p q st s y s' := by
  have hl : lead s0 = lead s := by unfold lead; rw [hw0]
  rcases hy with ⟨rfl, h3, rfl, h5⟩ | ⟨b1, tk, rfl, h3, h4, _, h6, _⟩
  · have hp : p = true := by
      rcases g3 with ⟨e1, e2⟩ | ⟨_, _, h⟩ | ⟨_, h, _⟩ | ⟨h, _⟩
      · exact absurd e1.symm e2
      · exact h
      · exact absurd rfl h
      · cases h
    exact .none hfl hsk hc hv rfl h3 hp hst h1 h2
  · exact .empty hfl hsk hv (by rw [hl]) h3 g3 h1 h2

end

/-- The text of a scalar in the chosen style. -/
def ValueOut (lb : Break) (flow : Bool) (ind pi : Int) (v : Text) (st' : ScalarStyle) (sk : Bool) (s2 : Emitter) (u : Text) (s3 : Emitter) : Prop :=
  InkOut flow ind lb v st' (!sk) s2 u s3 ∨ ((st' = .literal ∨ st' = .folded) ∧ BlkOut pi lb v st' s2 u s3) ∨
    (st' = .plain ∧ v = [] ∧ u = [] ∧ Kin s2 s3 ∧ s3.whitespace = false ∧ s3.indention = false)

theorem tw_emptyPlain {s : Emitter} (h : s.flowLevel = 0) {ab : Bool} : tw (writePlain [] ab) (fun _ t s' => t = [] ∧ Kin s s' ∧ s'.whitespace = false ∧ s'.indention = false) s := by
  unfold writePlain
  rw [tw_bind, tw_getE, tw_bind, tw_whenE, if_neg (by simp [h]), tw_bind]
  exact ⟨rfl, rfl, rfl, rfl⟩

theorem tw_value {lb : Break} {flow : Bool} {ind pi : Int} {v : Text} {st st' : ScalarStyle} {n p : Bool} {s s2 : Emitter} (hk : StyleOk s n p st st') (hs : s2.scalar.style = st')
    (hv : s2.scalar.value = v) (hsk : s2.simpleKeyContext = s.simpleKeyContext) (hfs : s2.flowLevel = s.flowLevel) (hfl : flow = decide (s.flowLevel ≠ 0))
    {st0 : ScalarStyle} (hn : s.scalar = { analyzeScalarData s.unicode v with style := st0 })
    (hu : ∀ c ∈ v, UScalar c) (hb : st = .folded → NoBlankLine v) (hl : s2.lineBreak = some lb) (hi1 : 1 ≤ s2.indentCol) (hi2 : ind ≤ s2.indentCol) (hbi : BlockIndent s2 pi) :
    tw processScalar (fun _ u s3 => ValueOut lb flow ind pi v st' s.simpleKeyContext s2 u s3) s2 := by
  unfold processScalar
  rw [tw_bind, tw_getE]
  simp only [hs, hv, hsk]
  have hba : st' = .literal ∨ st' = .folded → (analyzeScalarData s.unicode v).blockAllowed = true := by
    intro h
    have := (hk.block h).1
    rw [hn] at this
    exact this
  have hvne : (analyzeScalarData s.unicode v).blockAllowed = true → v ≠ [] := by
    rintro h rfl
    cases h
  cases st' with
  | any => exact absurd rfl hk.real
  | plain =>
    obtain ⟨h1, h2, h3⟩ := hk.plain rfl
    by_cases hv0 : v = []
    · subst hv0
      obtain ⟨k1, k2, k3⟩ := h2 (by rw [hn]; exact analyze_value _ _)
      exact tw_mono (tw_emptyPlain (hfs.trans k1)) fun _ u s3 h => .inr (.inr ⟨rfl, rfl, h⟩)
    · refine tw_mono (tw_inkPlain (flow := flow) (ind := ind) hl hi1 hi2 (u := s.unicode) hv0 ?_) fun _ u s3 h => .inl h
      rw [hn] at h1
      rw [hfl]
      simpa using h1
  | single =>
    refine tw_mono (tw_inkSingle (flow := flow) (ind := ind) hl hi1 (u := s.unicode) ?_) fun _ u s3 h => .inl h
    have := hk.single rfl
    rw [hn] at this
    exact this
  | double => exact tw_mono (tw_inkDouble (flow := flow) (ind := ind) hl hi1 hu) fun _ u s3 h => .inl h
  | literal =>
    exact tw_mono (tw_blkLiteral hl hbi (hvne (hba (.inl rfl))) (hba (.inl rfl))) fun _ u s3 h => .inr (.inl ⟨.inl rfl, h⟩)
  | folded =>
    exact tw_mono (tw_blkFolded hl hbi (hvne (hba (.inr rfl))) (hba (.inr rfl)) (hb (hk.folded rfl))) fun _ u s3 h => .inr (.inl ⟨.inr rfl, h⟩)

theorem tw_emitScalar {T : List TagDir} {lb : Break} {flow : Bool} {ind : Int} {a t : Option Text} {v : Text} {p q : Bool} {st : ScalarStyle} {s : Emitter}
    {x : EState} {xs : List EState} (hc : Ctx T lb s.core) (hfl : flow = decide (s.flowLevel ≠ 0)) (hind : ind ≤ s.deeper true false)
    (hg : GoodEvent s.canonical (.scalar a t v p q st)) (hf : EventFit T (.scalar a t v p q st)) (hn : Noted T s (.scalar a t v p q st))
    (hx : s.states = x :: xs) {Q : Unit → Text → Emitter → Prop}
    (hQ : ∀ y s', ScalarOut T lb flow ind a t v p q st s y s' → s'.core = { s.core with state := x, states := xs } → Q () y s') :
    tw (emitScalar p q st) Q s := by
  obtain ⟨hn1, st0, hn2⟩ := hn
  obtain ⟨_, hf2, hf3⟩ := hf
  have hl : s.lineBreak = some lb := hc.line
  have hb : 2 ≤ s.bestIndent ∧ s.bestIndent ≤ 9 := hc.best
  obtain ⟨_, hd⟩ := hc.deeper
  unfold emitScalar
  rw [tw_bind]
  refine tw_selectScalarStyle hg hn1 fun H st' t' g1 g2 g3 g4 => ?_
  have hlen : Emitter.propLen { s with tagHandle := H, scalar := { s.scalar with style := st' } } ≤ s.propLen + 1 := by
    unfold Emitter.propLen
    simp only []
    omega
  have f1 : Emitter.whitespace { s with tagHandle := H, scalar := { s.scalar with style := st' } } = s.whitespace := rfl
  have f2 : Emitter.core { s with tagHandle := H, scalar := { s.scalar with style := st' } } = s.core := rfl
  have f3 : Emitter.scalar { s with tagHandle := H, scalar := { s.scalar with style := st' } } = { s.scalar with style := st' } := rfl
  have f4 : Emitter.simpleKeyContext { s with tagHandle := H, scalar := { s.scalar with style := st' } } = s.simpleKeyContext := rfl
  have f5 : Emitter.unicode { s with tagHandle := H, scalar := { s.scalar with style := st' } } = s.unicode := rfl
  generalize ({ s with tagHandle := H, scalar := { s.scalar with style := st' } } : Emitter) = s0 at g1 hlen f1 f2 f3 f4 f5 ⊢
  refine tw_props (lb := lb) (s := s0) (a := a) (t := t') (k := fun _ => do increaseIndent true false; processScalar; popIndent; popStateE) g1 fun y s1 hy => ?_
  have hk : Kin s0 s1 := by
    rcases hy with ⟨_, _, _, rfl⟩ | ⟨_, _, _, _, _, hk, _⟩
    · exact Kin.refl _
    · exact hk
  have hcore : s1.core = s.core := hk.core.trans f2
  have hst : s1.states = x :: xs := (congrArg Core.states hcore).trans hx
  have hdeep : s1.deeper true false = s.deeper true false := by
    unfold Emitter.deeper
    rw [show s1.indent = s.indent from congrArg Core.indent hcore, show s1.bestIndent = s.bestIndent from congrArg Core.bestIndent hcore]
  unfold Kin at hk
  have k1 : s1.scalar = { s.scalar with style := st' } := (show s1.scalar = s0.scalar by rw [hk]).trans f3
  have k2 : s1.simpleKeyContext = s.simpleKeyContext := (show s1.simpleKeyContext = s0.simpleKeyContext by rw [hk]).trans f4
  clear hk
  refine tw_scalarTail hst ?_
  have hbi : BlockIndent { s1 with indents := s1.indent :: s1.indents, indent := s1.deeper true false } s.indent := by
    have := C46_indent (s := s1) (by rw [show s1.bestIndent = s.bestIndent from congrArg Core.bestIndent hcore]; exact hb.1)
      (by rw [show s1.bestIndent = s.bestIndent from congrArg Core.bestIndent hcore]; exact hb.2)
    rw [show s1.indent = s.indent from congrArg Core.indent hcore] at this
    exact this
  refine tw_mono (tw_value (lb := lb) (flow := flow) (ind := ind) (pi := s.indent) (v := v) g2 (by show s1.scalar.style = st'; rw [k1])
    (by show s1.scalar.value = v; rw [k1]; show s.scalar.value = v; rw [hn2]; exact analyze_value _ _) k2 (congrArg Core.flowLevel hcore) hfl hn2 hf2 hf3
    ((congrArg Core.lineBreak hcore).trans hl) (by show 1 ≤ (s1.deeper true false).toNat; rw [hdeep]; omega)
    (by show ind ≤ ((s1.deeper true false).toNat : Int); rw [hdeep]; omega) hbi) fun _ u s3 ho => ?_
  have hkin : Kin { s1 with indents := s1.indent :: s1.indents, indent := s1.deeper true false } s3 := by
    rcases ho with ⟨_, _, _, _, _, _, h, _⟩ | ⟨_, _, _, _, _, _, _, _, h⟩ | ⟨_, _, _, h, _⟩ <;> exact h
  refine ⟨hkin, hQ _ _ ?_ ?_⟩
  · rw [List.nil_append]
    rcases ho with ho | ⟨h1, ho⟩ | ⟨rfl, h2, rfl, _, h3, h4⟩
    · exact ink_out (s2 := { s1 with indents := s1.indent :: s1.indents, indent := s1.deeper true false }) (s3 := s3) hy f1 hlen rfl g3 ho rfl rfl
    · obtain ⟨b1, b2, b3⟩ := g2.block h1
      exact blk_out (s2 := { s1 with indents := s1.indent :: s1.indents, indent := s1.deeper true false }) (s3 := s3) hy f1 rfl (by rw [hfl, decide_eq_false_iff_not]; omega) b3 g3 ho rfl rfl rfl
    · obtain ⟨b1, b2, b3⟩ := (g2.plain rfl).2.1 (by rw [hn2]; exact (analyze_value _ _).trans h2)
      rw [List.append_nil]
      exact none_out hy f1 (by rw [hfl, decide_eq_false_iff_not]; omega) b2 b3 h2 (g2.asked rfl) g3 h3 h4
  · have e := hkin.core
    have e2 : Emitter.core { s3 with indent := s1.indent, indents := s1.indents, state := x, states := xs } =
        { s3.core with indent := s1.indent, indents := s1.indents, state := x, states := xs } := rfl
    rw [e2, e, ← hcore]
    rfl

end LibYaml
