import Verif.Proofs.InlineNode

/-!
# Flow collections: the text that is written, and the tokens it is read as
-/

namespace LibYaml

open Spec

/-! ### The parts of a flow collection -/

theorem gap_indent {lb : Break} {s : Emitter} (hl : s.lineBreak = some lb) {Q : Unit → Text → Emitter → Prop}
    (h : ∀ br k s', Kin s s' → s'.whitespace = true → Q () (gap lb br k) s') : tw writeIndent Q s := by
  cases hn : s.needBreak with
  | true =>
    have e : brkText s.lineBreak = brkText (some lb) := by rw [hl]
    rw [tw_writeIndent hn, e]
    exact h true _ _ (by rfl) (by rfl)
  | false =>
    rw [tw_writeIndent' hn]
    exact h false _ _ (by rfl) (by rfl)

/-- An indicator that needs white space in front of it. -/
theorem tw_indicator {t : Text} {w : Bool} {s : Emitter} {Q : Unit → Text → Emitter → Prop} :
    tw (writeIndicator t true w false) Q s ↔ Q () (lead s ++ t) { s with column := s.column + (lead s).length + t.length, whitespace := w, indention := false } := by
  rw [tw_writeIndicator, Bool.and_false]
  unfold lead
  cases s.whitespace <;> exact Iff.rfl

/-- The white space in front of a node. -/
theorem tw_wide {lb : Break} {s : Emitter} (hl : s.lineBreak = some lb) {Q : Unit → Text → Emitter → Prop}
    (h : ∀ br k t s', Kin s s' → t ++ lead s' = gap lb br k → Q () t s') : tw (whenE s.tooWide writeIndent) Q s := by
  rw [tw_whenE]
  split
  · refine gap_indent hl fun br k s' h1 h2 => h br k _ _ h1 ?_
    unfold lead
    rw [h2]; simp
  · cases hw : s.whitespace with
    | true => exact h false 0 _ _ (Kin.refl _) (by unfold lead; rw [hw]; rfl)
    | false => exact h false 1 _ _ (Kin.refl _) (by unfold lead; rw [hw]; rfl)

/-- A sequence or a mapping. -/
def openC (mp : Bool) : Nat := if mp = true then 123 else 91
def closeC (mp : Bool) : Nat := if mp = true then 125 else 93
def openT (mp : Bool) : TokData := if mp = true then .flowMappingStart else .flowSequenceStart
def closeT (mp : Bool) : TokData := if mp = true then .flowMappingEnd else .flowSequenceEnd
def endE (mp : Bool) : EvData := if mp = true then .mappingEnd else .sequenceEnd
def firstS (mp : Bool) : EState := if mp = true then .flowMappingFirstKey else .flowSequenceFirstItem
def nextS (mp : Bool) : EState := if mp = true then .flowMappingKey else .flowSequenceItem
def itemNt (mp : Bool) : Nt := if mp = true then .flowPair else .flowItem
def listNt (mp : Bool) : Nt := if mp = true then .flowPairs else .flowItems

theorem isStart_open (mp : Bool) : IsStart (openC mp) (openT mp) := by cases mp <;> simp [IsStart, openC, openT]
theorem isEnd_close (mp : Bool) : IsEnd (closeC mp) (closeT mp) := by cases mp <;> simp [IsEnd, closeC, closeT]

/-- The step of an item behind the comma. -/
def itemTail : Bool → EvData → EM Unit
  | false, e => do
    whenE (← getE).tooWide writeIndent
    pushStateE .flowSequenceItem
    emitNode e false true false false
  | true, e => do
    whenE (← getE).tooWide writeIndent
    if !(← getE).canonical && (← getE).simpleKey then
      pushStateE .flowMappingSimpleValue
      emitNode e false false true true
    else
      writeIndicator [c! '?'] true false false
      pushStateE .flowMappingValue
      emitNode e false false true false

/-- The step of an item. -/
def emitFlow (mp : Bool) (e : EvData) (first : Bool) : EM Unit := do
  whenE first (openFlow (openC mp))
  if e = endE mp then closeFlow (closeC mp) first
  else
    whenE (!first) (writeIndicator [c! ','] false false false)
    itemTail mp e

theorem step_flow {mp first : Bool} {e : EvData} {s : Emitter} (h : s.state = if first = true then firstS mp else nextS mp) {Q : Unit → Text → Emitter → Prop} :
    tw (emitterStep e) Q s ↔ tw (emitFlow mp e first) Q s := by
  unfold emitterStep
  rw [tw_bind, tw_getE, h]
  cases mp <;> cases first <;> exact Iff.rfl

theorem Means.nil (T : List TagDir) (mp : Bool) : Means T (listNt mp) [] [] := by
  cases mp
  · exact ⟨_, .itemsNil, .nil⟩
  · exact ⟨_, .fpairsNil, .nil⟩

theorem Means.one {T : List TagDir} {mp : Bool} {tk : List TokData} {w : List EvData} (h : Means T (itemNt mp) tk w) : Means T (listNt mp) tk w := by
  obtain ⟨evs, h1, h2⟩ := h
  cases mp
  · exact ⟨_, .itemsOne h1, h2⟩
  · exact ⟨_, .fpairsOne h1, h2⟩

theorem forall2_append {α β : Type} {R : α → β → Prop} {a c : List α} {b d : List β} (h1 : List.Forall₂ R a b) (h2 : List.Forall₂ R c d) : List.Forall₂ R (a ++ c) (b ++ d) := by
  induction h1 with
  | nil => exact h2
  | cons h _ ih => exact .cons h ih

theorem Means.cons {T : List TagDir} {mp : Bool} {tk tk' : List TokData} {w w' : List EvData} (h : Means T (itemNt mp) tk w) (h' : Means T (listNt mp) tk' w') :
    Means T (listNt mp) (tk ++ .flowEntry :: tk') (w ++ w') := by
  obtain ⟨evs, h1, h2⟩ := h
  obtain ⟨evs', h1', h2'⟩ := h'
  cases mp
  · exact ⟨_, .itemsCons h1 h1', forall2_append h2 h2'⟩
  · exact ⟨_, .fpairsCons h1 h1', forall2_append h2 h2'⟩

/-! ### Items -/

/-- An item inside a flow collection. -/
def ItemF (mp : Bool) (w : List EvData) : Prop :=
  ∃ e es, w = e :: es ∧ startsNode e ∧ (opensNode e = true → es ≠ []) ∧
    ∀ {T : List TagDir} {lb : Break} {ind : Int} {s : Emitter} {R : Text → Emitter → Prop},
    Ctx T lb s.core → s.flowLevel ≠ 0 → ind ≤ s.indent → Noted T s e → Peek e es s.events → Fits T s.canonical w →
    (∀ t s', (∃ br k b h tk, t = gap lb br k ++ b ∧ ItemScan ind lb h b tk ∧ Deep h w ∧ Means T (itemNt mp) tk w ∧ Behind { s.core with state := nextS mp } s') → R t s') →
    WritesFrom (itemTail mp e) es R s

/-- The items behind the first one, and the end. -/
def RestF (mp : Bool) (w : List EvData) : Prop :=
  ∀ {T : List TagDir} {lb : Break} {ind : Int} {s : Emitter} {x : EState} {xs : List EState} {i : Int} {is : List Int} {R : Text → Emitter → Prop},
    Ctx T lb s.core → 1 ≤ s.flowLevel → ind ≤ s.indent → s.state = nextS mp → s.states = x :: xs → s.indents = i :: is → Fits T s.canonical w →
    (∀ t s', (∃ h tk, FlowNext ind lb h (closeC mp) t (tk ++ [closeT mp]) ∧ Deep h w ∧ ((tk = [] ∧ w = []) ∨ ∃ tk', tk = .flowEntry :: tk' ∧ Means T (listNt mp) tk' w) ∧
      Behind { s.core with state := x, states := xs, indent := i, indents := is, flowLevel := s.flowLevel - 1 } s') → R t s') →
    Writes (w ++ [endE mp]) R s

/-- The items of a flow collection. -/
def FirstF (mp : Bool) (w : List EvData) : Prop :=
  ∀ {T : List TagDir} {lb : Break} {ind : Int} {s : Emitter} {x : EState} {xs : List EState} {R : Text → Emitter → Prop},
    Ctx T lb s.core → ind ≤ s.deeper true false → s.state = firstS mp → s.states = x :: xs → Fits T s.canonical w →
    (∀ t s', (∃ b h tk, t = lead s ++ openC mp :: b ∧ FlowFirst ind lb h b (tk ++ [closeT mp]) ∧ Deep h w ∧ Means T (listNt mp) tk w ∧ Behind (s.core.pop x xs) s') → R t s') →
    Writes (w ++ [endE mp]) R s

theorem tw_openFlow {c : Nat} {s : Emitter} {Q : Unit → Text → Emitter → Prop}
    (h : ∀ C, Q () (lead s ++ [c]) { s with column := C, whitespace := true, indention := false, indents := s.indent :: s.indents, indent := s.deeper true false, flowLevel := s.flowLevel + 1 }) :
    tw (openFlow c) Q s := by
  unfold openFlow
  rw [tw_bind, tw_indicator, tw_bind, tw_increaseIndent, tw_modE]
  rw [List.nil_append, List.append_nil]
  exact h _

theorem tw_closeFlow {lb : Break} {c : Nat} {first : Bool} {s : Emitter} {i : Int} {is : List Int} {x : EState} {xs : List EState} (hl : s.lineBreak = some lb)
    (hi : s.indents = i :: is) (hx : s.states = x :: xs) {Q : Unit → Text → Emitter → Prop}
    (h : ∀ t s', (t = [c] ∨ (first = false ∧ ∃ br k, t = 44 :: (gap lb br k ++ [c]))) →
      Behind { s.core with state := x, states := xs, indent := i, indents := is, flowLevel := s.flowLevel - 1 } s' → Q () t s') : tw (closeFlow c first) Q s := by
  unfold closeFlow
  rw [tw_bind, tw_modE, tw_bind, tw_popIndent (i := i) (is := is) (by exact hi), tw_bind, tw_getE, tw_bind, tw_whenE]
  have fin : ∀ {s1 : Emitter} {t1 : Text}, s1.core = { s.core with indent := i, indents := is, flowLevel := s.flowLevel - 1 } →
      (t1 = [] ∨ (first = false ∧ ∃ br k, t1 = 44 :: gap lb br k)) →
      tw (do writeIndicator [c] false false false; popStateE) (fun _ u s'' => Q () (t1 ++ u) s'') s1 := by
    intro s1 t1 h1 h2
    rw [tw_bind, tw_writeIndicator, tw_popState (x := x) (xs := xs) (by exact (congrArg Core.states h1).trans hx)]
    refine h _ _ ?_ ⟨?_, rfl, ?_⟩
    · rcases h2 with rfl | ⟨h2, br, k, rfl⟩
      · exact .inl rfl
      · exact .inr ⟨h2, br, k, by simp⟩
    · show ({ s1.core with state := x, states := xs } : Core) = _
      rw [h1]
    · exact Bool.and_false _
  split
  · rename_i hc
    rw [tw_bind, tw_writeIndicator]
    refine gap_indent (lb := lb) (by exact hl) fun br k s1 h1 h2 => ?_
    refine fin (t1 := _) ?_ (.inr ⟨?_, br, k, ?_⟩)
    · rw [h1.core]; rfl
    · revert hc; cases first <;> simp
    · simp
  · exact fin (s1 := { s with flowLevel := s.flowLevel - 1, indent := i, indents := is }) rfl (.inl rfl)

theorem endE_good (mp c : Bool) : GoodEvent c (endE mp) := by cases mp <;> trivial
theorem endE_fit (mp : Bool) (T : List TagDir) : EventFit T (endE mp) := by cases mp <;> trivial
theorem endE_leaf (mp : Bool) (h : opensNode (endE mp) = true) (es : List EvData) : es ≠ [] := by cases mp <;> cases h
theorem startsNode.not_end {e : EvData} (h : startsNode e) (mp : Bool) : e ≠ endE mp := by
  rintro rfl
  cases mp <;> exact h

/-- The end of a flow collection. -/
theorem flow_end {T : List TagDir} {lb : Break} {mp : Bool} {s : Emitter} {x : EState} {xs : List EState} {i : Int} {is : List Int} {R : Text → Emitter → Prop}
    (hc : Ctx T lb s.core) (hst : s.state = nextS mp) (hx : s.states = x :: xs) (hi : s.indents = i :: is)
    (hR : ∀ t s', (t = [closeC mp] ∨ ∃ br k, t = 44 :: (gap lb br k ++ [closeC mp])) →
      Behind { s.core with state := x, states := xs, indent := i, indents := is, flowLevel := s.flowLevel - 1 } s' → R t s') : Writes [endE mp] R s := by
  refine Writes.event (endE_leaf mp · _) hc (endE_good _ _) (endE_fit _ _) fun s1 hs _ _ => Writes.done ?_
  rw [step_flow (mp := mp) (first := false) (hs.state.trans hst)]
  unfold emitFlow
  rw [tw_bind, tw_whenE, if_neg (by simp), tw_ite, if_pos rfl]
  refine tw_closeFlow (lb := lb) (x := x) (xs := xs) (i := i) (is := is) ((congrArg Core.lineBreak hs.core).trans hc.line) (hs.indents.trans hi) (hs.states.trans hx) fun t s' h1 h2 => ?_
  rw [hs.core, hs.flowLevel] at h2
  exact hR _ _ (h1.imp id And.right) h2

theorem rest_nil (mp : Bool) : RestF mp [] := by
  intro T lb ind s x xs i is R hc hfl hind hst hx hi hf hR
  refine flow_end hc hst hx hi fun t s' h1 h2 => hR _ _ ?_
  rcases h1 with rfl | ⟨br, k, rfl⟩
  · exact ⟨0, [], next_end (isEnd_close mp), .zero _, .inl ⟨rfl, rfl⟩, h2⟩
  · exact ⟨0, [.flowEntry], next_comma_end (isEnd_close mp), .zero _, .inr ⟨[], rfl, .nil T mp⟩, h2⟩

theorem Fits.left {T : List TagDir} {c : Bool} {v w : List EvData} (h : Fits T c (v ++ w)) : Fits T c v := fun e he => h e (List.mem_append_left _ he)
theorem Fits.right {T : List TagDir} {c : Bool} {v w : List EvData} (h : Fits T c (v ++ w)) : Fits T c w := fun e he => h e (List.mem_append_right _ he)

theorem closeC_cases (mp : Bool) : closeC mp = 93 ∨ closeC mp = 125 := by cases mp <;> simp [closeC]

theorem rest_cons {mp : Bool} {v w : List EvData} (hv : ItemF mp v) (hl : level v = 0) (hw : RestF mp w) : RestF mp (v ++ w) := by
  intro T lb ind s x xs i is R hc hfl hind hst hx hi hf hR
  obtain ⟨e, es, rfl, hse, hne, hv⟩ := hv
  have hf1 := hf.left
  rw [List.append_assoc]
  refine Writes.append ?_
  refine Writes.event hne hc (hf1 _ List.mem_cons_self).1 (hf1 _ List.mem_cons_self).2 fun s1 hs hn hp => ?_
  have hstep : ∀ {R}, WritesFrom (emitFlow mp e false) es R s1 → WritesFrom (emitterStep e) es R s1 := by
    intro R h
    unfold WritesFrom at *
    rw [step_flow (mp := mp) (first := false) (hs.state.trans hst)]
    exact h
  refine hstep ?_
  unfold emitFlow
  refine WritesFrom.bind ?_
  rw [tw_whenE, if_neg (by simp), if_neg (hse.not_end mp)]
  refine WritesFrom.bind ?_
  rw [tw_whenE, if_pos (by rfl), tw_writeIndicator]
  refine hv (T := T) (lb := lb) (ind := ind) (by exact hs.core ▸ hc) (by show s1.flowLevel ≠ 0; rw [hs.flowLevel]; omega) (by show ind ≤ s1.indent; rw [hs.indent]; exact hind)
    (by exact hn.congr rfl) (by exact hp) (by show Fits T s1.canonical _; rw [hs.canonical]; exact hf1) fun t s2 ho => ?_
  obtain ⟨br, k, b, h1, tk1, rfl, g1, g2, g3, g4⟩ := ho
  have hcore : s2.core = { s.core with state := nextS mp } := by
    rw [g4.core, ← hs.core]; rfl
  refine hw (T := T) (lb := lb) (ind := ind) (x := x) (xs := xs) (i := i) (is := is) (by rw [hcore]; exact ⟨hc.line, hc.best, hc.tags, hc.good, hc.once, hc.low, hc.level, hc.inFlow⟩)
    (by rw [show s2.flowLevel = s.flowLevel from congrArg Core.flowLevel hcore]; exact hfl) (by rw [show s2.indent = s.indent from congrArg Core.indent hcore]; exact hind)
    (congrArg Core.state hcore) ((congrArg Core.states hcore).trans hx) ((congrArg Core.indents hcore).trans hi)
    (by rw [show s2.canonical = s.canonical from congrArg Core.canonical hcore]; exact hf.right) fun u s3 ho => ?_
  obtain ⟨h2, tk2, k1, k2, k3, k4⟩ := ho
  rw [hcore, show s2.flowLevel = s.flowLevel from congrArg Core.flowLevel hcore] at k4
  refine hR _ _ ⟨max h1 h2, .flowEntry :: (tk1 ++ tk2), ?_, (g2.left _).max (k2.right hl), .inr ⟨_, rfl, ?_⟩, k4⟩
  · have := next_item (lb := lb) (k := k) (br := br) (closeC_cases mp) g1 k1
    simpa using this
  · rcases k3 with ⟨rfl, rfl⟩ | ⟨tk', rfl, k3⟩
    · simpa using g3.one
    · exact g3.cons k3

/-- An empty flow collection. -/
theorem flow_empty {T : List TagDir} {lb : Break} {mp : Bool} {s : Emitter} {x : EState} {xs : List EState} {R : Text → Emitter → Prop} (hc : Ctx T lb s.core)
    (hst : s.state = firstS mp) (hx : s.states = x :: xs) (hR : ∀ s', Behind (s.core.pop x xs) s' → R (lead s ++ [openC mp, closeC mp]) s') : Writes [endE mp] R s := by
  refine Writes.event (endE_leaf mp · _) hc (endE_good _ _) (endE_fit _ _) fun s1 hs _ _ => Writes.done ?_
  rw [step_flow (mp := mp) (first := true) (hs.state.trans hst)]
  unfold emitFlow
  rw [tw_bind, tw_whenE, if_pos rfl]
  refine tw_openFlow fun C => ?_
  rw [tw_ite, if_pos rfl]
  refine tw_closeFlow (lb := lb) (x := x) (xs := xs) (i := s1.indent) (is := s1.indents) (by exact (congrArg Core.lineBreak hs.core).trans hc.line) rfl
    (by exact hs.states.trans hx) fun t s' h1 h2 => ?_
  rcases h1 with rfl | ⟨h1, _⟩
  · rw [hs.lead, List.append_assoc]
    refine hR s' ⟨?_, h2.2, h2.3⟩
    rw [h2.core]
    have e : s1.flowLevel + 1 - 1 = s1.flowLevel := by omega
    show Core.mk x xs s1.indents s1.indent (s1.flowLevel + 1 - 1) s1.tags s1.canonical s1.unicode s1.bestIndent s1.bestWidth s1.lineBreak = _
    rw [e, ← hs.core]; rfl
  · cases h1

theorem first_nil (mp : Bool) : FirstF mp [] := by
  intro T lb ind s x xs R hc hind hst hx hf hR
  exact flow_empty hc hst hx fun s' h => hR _ _ ⟨[closeC mp], 0, [], rfl, @first_end ind lb _ _ (isEnd_close mp), .zero _, .nil T mp, h⟩

theorem first_cons {mp : Bool} {v w : List EvData} (hv : ItemF mp v) (hl : level v = 0) (hw : RestF mp w) : FirstF mp (v ++ w) := by
  intro T lb ind s x xs R hc hind hst hx hf hR
  obtain ⟨e, es, rfl, hse, hne, hv⟩ := hv
  have hf1 := hf.left
  rw [List.append_assoc]
  refine Writes.append ?_
  refine Writes.event hne hc (hf1 _ List.mem_cons_self).1 (hf1 _ List.mem_cons_self).2 fun s1 hs hn hp => ?_
  have hstep : ∀ {R}, WritesFrom (emitFlow mp e true) es R s1 → WritesFrom (emitterStep e) es R s1 := by
    intro R h
    unfold WritesFrom at *
    rw [step_flow (mp := mp) (first := true) (hs.state.trans hst)]
    exact h
  refine hstep ?_
  unfold emitFlow
  refine WritesFrom.bind ?_
  rw [tw_whenE, if_pos rfl]
  refine tw_openFlow fun C => ?_
  rw [if_neg (hse.not_end mp)]
  refine WritesFrom.bind ?_
  rw [tw_whenE, if_neg (by simp)]
  have hd := hc.deeper
  have hl0 : 0 ≤ s.flowLevel := hc.level
  have hfl1 : s1.flowLevel = s.flowLevel := hs.flowLevel
  have hd1 : s1.deeper true false = s.deeper true false := hs.deeper
  have hc1 : Ctx T lb ({ s1.core with indents := s1.indent :: s1.indents, indent := s1.deeper true false, flowLevel := s1.flowLevel + 1 } : Core) := by
    rw [hs.core]
    exact ⟨hc.line, hc.best, hc.tags, hc.good, hc.once, by show -1 ≤ s1.deeper true false; omega, by show 0 ≤ s1.flowLevel + 1; omega, fun _ => by show 0 ≤ s1.deeper true false; omega⟩
  refine hv (T := T) (lb := lb) (ind := ind) (by exact hc1) (by show s1.flowLevel + 1 ≠ 0; omega) (by show ind ≤ s1.deeper true false; omega)
    (by exact hn.congr rfl) (by exact hp) (by show Fits T s1.canonical _; rw [hs.canonical]; exact hf1) fun t s2 ho => ?_
  obtain ⟨br, k, b, h1, tk1, rfl, g1, g2, g3, g4⟩ := ho
  have hcore : s2.core = { s1.core with state := nextS mp, indents := s1.indent :: s1.indents, indent := s1.deeper true false, flowLevel := s1.flowLevel + 1 } := g4.core
  refine hw (T := T) (lb := lb) (ind := ind) (x := x) (xs := xs) (i := s1.indent) (is := s1.indents)
    (by rw [hcore]; exact ⟨hc1.line, hc1.best, hc1.tags, hc1.good, hc1.once, hc1.low, hc1.level, hc1.inFlow⟩)
    (by rw [show s2.flowLevel = s1.flowLevel + 1 from congrArg Core.flowLevel hcore]; omega)
    (by rw [show s2.indent = s1.deeper true false from congrArg Core.indent hcore]; omega)
    (congrArg Core.state hcore) ((congrArg Core.states hcore).trans (hs.states.trans hx)) (congrArg Core.indents hcore)
    (by rw [show s2.canonical = s1.canonical from congrArg Core.canonical hcore, hs.canonical]; exact hf.right) fun u s3 ho => ?_
  obtain ⟨h2, tk2, k1, k2, k3, k4⟩ := ho
  refine hR _ _ ⟨gap lb br k ++ (b ++ u), max h1 h2, tk1 ++ tk2, ?_, ?_, (g2.left _).max (k2.right hl), ?_, ?_, k4.2, k4.3⟩
  · rw [hs.lead]; simp
  · rw [List.append_assoc]
    exact @first_item ind lb h1 h2 _ k br _ _ _ _ (closeC_cases mp) g1 k1
  · rcases k3 with ⟨rfl, rfl⟩ | ⟨tk', rfl, k3⟩
    · simpa using g3.one
    · exact g3.cons k3
  · rw [k4.core, hcore, show s2.flowLevel = s1.flowLevel + 1 from congrArg Core.flowLevel hcore]
    have e : s1.flowLevel + 1 - 1 = s1.flowLevel := by omega
    rw [e, ← hs.core]; rfl

/-! ### Collections -/

/-- The event at the start of a collection. -/
def startE (mp : Bool) (a t : Option Text) (i : Bool) (st : CollStyle) : EvData := if mp = true then .mappingStart a t i st else .sequenceStart a t i st

/-- The state of a block collection. -/
def blockS (mp : Bool) : EState := if mp = true then .blockMappingFirstKey else .blockSequenceFirstItem

/-- Nothing is in the collection. -/
def Emitter.emptyColl (s : Emitter) (mp : Bool) : Bool := if mp = true then s.emptyMapping else s.emptySequence

theorem emptyColl_congr {s s' : Emitter} {mp : Bool} (h : s'.events = s.events) : s'.emptyColl mp = s.emptyColl mp := by
  cases mp <;> simp only [Emitter.emptyColl, Emitter.emptyMapping, Emitter.emptySequence, h]

/-- The flow style is chosen. -/
def Emitter.asFlow (s : Emitter) (mp : Bool) (st : CollStyle) : Prop := s.flowLevel ≠ 0 ∨ s.canonical = true ∨ st = .flow ∨ s.emptyColl mp = true

instance (s : Emitter) (mp : Bool) (st : CollStyle) : Decidable (s.asFlow mp st) := by unfold Emitter.asFlow; infer_instance

/-- The tag that is written. -/
def shown (c i : Bool) (t : Option Text) : Option Text := if (c || !i) = true then t else none

theorem shown_tag {c i : Bool} {t : Option Text} : CollTag t i (shown c i t) (untagged (shown c i t)) := collTag_of

theorem Noted.start {T : List TagDir} {s : Emitter} {mp : Bool} {a t : Option Text} {i : Bool} {st : CollStyle} (h : Noted T s (startE mp a t i st)) :
    PropNote T s a (shown s.canonical i t) := by
  cases mp <;> exact h

theorem tw_emitStart {T : List TagDir} {lb : Break} {mp : Bool} {a t : Option Text} {i : Bool} {st : CollStyle} {s : Emitter} {root sq mc sk : Bool}
    (hn : Noted T s (startE mp a t i st)) {Q : Unit → Text → Emitter → Prop}
    (hQ : ∀ x s1, PropOut T lb a (shown s.canonical i t) { s with rootContext := root, sequenceContext := sq, mappingContext := mc, simpleKeyContext := sk } x s1 →
      Q () x { s1 with state := if s.asFlow mp st then firstS mp else blockS mp }) :
    tw (emitNode (startE mp a t i st) root sq mc sk) Q s := by
  have hp := (hn.congr (s' := { s with rootContext := root, sequenceContext := sq, mappingContext := mc, simpleKeyContext := sk }) rfl).start
  have key : ∀ x s1, PropOut T lb a (shown s.canonical i t) { s with rootContext := root, sequenceContext := sq, mappingContext := mc, simpleKeyContext := sk } x s1 →
      s1.core = s.core ∧ s1.events = s.events := by
    intro x s1 h
    rcases h with ⟨_, _, _, rfl⟩ | ⟨_, _, _, _, _, h, _⟩
    · exact ⟨rfl, rfl⟩
    · exact ⟨h.core, h.events⟩
  have eq : ∀ x s1, PropOut T lb a (shown s.canonical i t) { s with rootContext := root, sequenceContext := sq, mappingContext := mc, simpleKeyContext := sk } x s1 →
      (s1.asFlow mp st ↔ s.asFlow mp st) := by
    intro x s1 h
    obtain ⟨h1, h2⟩ := key x s1 h
    unfold Emitter.asFlow
    rw [emptyColl_congr h2, show s1.flowLevel = s.flowLevel from congrArg Core.flowLevel h1, show s1.canonical = s.canonical from congrArg Core.canonical h1]
  have fin : ∀ x s1, PropOut T lb a (shown s.canonical i t) { s with rootContext := root, sequenceContext := sq, mappingContext := mc, simpleKeyContext := sk } x s1 →
      Q () (x ++ ([] ++ [])) { s1 with state := if s1.asFlow mp st then firstS mp else blockS mp } := by
    intro x s1 h
    have h1 := hQ x s1 h
    have e : (if s1.asFlow mp st then firstS mp else blockS mp) = if s.asFlow mp st then firstS mp else blockS mp := by
      by_cases hc : s.asFlow mp st
      · rw [if_pos hc, if_pos ((eq x s1 h).mpr hc)]
      · rw [if_neg hc, if_neg (fun h' => hc ((eq x s1 h).mp h'))]
    rw [e]
    simpa using h1
  unfold emitNode
  rw [tw_bind, tw_modE]
  cases mp with
  | false =>
    refine tw_props (lb := lb) (s := { s with rootContext := root, sequenceContext := sq, mappingContext := mc, simpleKeyContext := sk }) (a := a) (t := shown s.canonical i t)
      (k := fun _ => do
        let s ← getE
        setStateE (if s.flowLevel ≠ 0 ∨ s.canonical = true ∨ st = .flow ∨ s.emptySequence = true then .flowSequenceFirstItem else .blockSequenceFirstItem)) hp fun x s1 h => ?_
    rw [tw_bind, tw_getE, tw_setState]
    exact fin x s1 h
  | true =>
    refine tw_props (lb := lb) (s := { s with rootContext := root, sequenceContext := sq, mappingContext := mc, simpleKeyContext := sk }) (a := a) (t := shown s.canonical i t)
      (k := fun _ => do
        let s ← getE
        setStateE (if s.flowLevel ≠ 0 ∨ s.canonical = true ∨ st = .flow ∨ s.emptyMapping = true then .flowMappingFirstKey else .blockMappingFirstKey)) hp fun x s1 h => ?_
    rw [tw_bind, tw_getE, tw_setState]
    exact fin x s1 h

theorem Means.coll {T : List TagDir} {mp : Bool} {p tk : List TokData} {w : List EvData} {a t t' : Option Text} {i : Bool} {st : CollStyle} (hp : Properties T p a t')
    (ht : CollTag t i t' (untagged t')) (h : Means T (listNt mp) tk w) (bl j : Bool) :
    Means T (.node bl j) (p ++ openT mp :: (tk ++ [closeT mp])) (startE mp a t i st :: (w ++ [endE mp])) := by
  obtain ⟨evs, h1, h2⟩ := h
  have e : p ++ openT mp :: (tk ++ [closeT mp]) = p ++ openT mp :: tk ++ [closeT mp] := by simp
  rw [e]
  cases mp
  · exact ⟨_, .flowSequence hp h1, .cons (.sequenceStart _ _ _ ht) (forall2_append h2 (forall2_one .sequenceEnd))⟩
  · exact ⟨_, .flowMapping hp h1, .cons (.mappingStart _ _ _ ht) (forall2_append h2 (forall2_one .mappingEnd))⟩

theorem level_start (mp : Bool) (a t : Option Text) (i : Bool) (st : CollStyle) : level [startE mp a t i st] = 1 := by cases mp <;> rfl

/-- What a flow collection leaves behind, with the properties in front of it. -/
theorem inline_first {T : List TagDir} {lb : Break} {flow : Bool} {ind : Int} {mp : Bool} {a t t' : Option Text} {i : Bool} {st : CollStyle} {w : List EvData} {s0 s s1 s2 s' : Emitter}
    {c : Core} {x u b : Text} {h : Nat} {tk : List TokData} (hp : PropOut T lb a t' s0 x s1) (hw0 : s0.whitespace = s.whitespace) (ht : CollTag t i t' (untagged t'))
    (h2 : s2.whitespace = s1.whitespace) (hu : u = lead s2 ++ openC mp :: b) (hs : FlowFirst ind lb h b (tk ++ [closeT mp])) (hd : Deep h w) (hm : Means T (listNt mp) tk w)
    (hb : Behind c s') : InlineOut T lb flow ind (startE mp a t i st :: (w ++ [endE mp])) c s (x ++ u) s' := by
  subst hu
  have hl : lead s0 = lead s := by unfold lead; rw [hw0]
  have hn := node_flow (flow := flow) (lb := lb) (isStart_open mp) hs
  have hdeep : Deep (h + 1) (startE mp a t i st :: (w ++ [endE mp])) := hd.inside (level_start ..) _
  rcases prop_lead (b := openC mp :: b) hp h2 with ⟨e1, e2, e3, e4, e5⟩ | ⟨b1, tk1, e1, e2, e3⟩
  · refine ⟨openC mp :: b, h + 1, [] ++ openT mp :: (tk ++ [closeT mp]), by rw [e5, hl], ⟨hn, hdeep, fun bl j => Means.coll ?_ ht hm bl j⟩, hb⟩
    rw [e2, e3]; exact .none
  · exact ⟨_, h + 1, tk1 ++ openT mp :: (tk ++ [closeT mp]), by rw [e3, hl], ⟨(e1.scan flow ind).compNode e1.line hn, hdeep, fun bl j => Means.coll e1.props ht hm bl j⟩, hb⟩

theorem inline_coll {T : List TagDir} {lb : Break} {flow : Bool} {ind : Int} {mp : Bool} {a t : Option Text} {i : Bool} {st : CollStyle} {w : List EvData} {s : Emitter}
    {x : EState} {xs : List EState} {root sq mc sk : Bool} {R : Text → Emitter → Prop} (hw : FirstF mp w) (hc : Ctx T lb s.core) (hi : ind ≤ s.deeper true false)
    (hn : Noted T s (startE mp a t i st)) (hx : s.states = x :: xs) (hf : Fits T s.canonical (startE mp a t i st :: (w ++ [endE mp]))) (hfl : s.asFlow mp st)
    (hR : ∀ y s', InlineOut T lb flow ind (startE mp a t i st :: (w ++ [endE mp])) (s.core.pop x xs) s y s' → R y s') :
    WritesFrom (emitNode (startE mp a t i st) root sq mc sk) (w ++ [endE mp]) R s := by
  refine tw_emitStart (lb := lb) hn fun y s1 hp => ?_
  rw [if_pos hfl]
  have hcore : s1.core = s.core := by
    rcases hp with ⟨_, _, _, rfl⟩ | ⟨_, _, _, _, _, h, _⟩
    · rfl
    · exact h.core
  have hcore2 : Emitter.core { s1 with state := firstS mp } = { s.core with state := firstS mp } := by rw [← hcore]; rfl
  have hcan : s1.canonical = s.canonical := congrArg Core.canonical hcore
  have hdeep : Emitter.deeper { s1 with state := firstS mp } true false = s.deeper true false := by
    unfold Emitter.deeper
    simp only [show s1.indent = s.indent from congrArg Core.indent hcore, show s1.bestIndent = s.bestIndent from congrArg Core.bestIndent hcore]
  refine hw (T := T) (lb := lb) (ind := ind) (x := x) (xs := xs) (by rw [hcore2]; exact ⟨hc.line, hc.best, hc.tags, hc.good, hc.once, hc.low, hc.level, hc.inFlow⟩)
    (by rw [hdeep]; exact hi) rfl (by exact (congrArg Core.states hcore).trans hx)
    (by show Fits T s1.canonical w; rw [hcan]; exact fun e he => hf e (List.mem_cons_of_mem _ (List.mem_append_left _ he))) fun u s' ho => ?_
  obtain ⟨b, h, tk, e1, e2, e3, e4, e5⟩ := ho
  refine hR _ _ (inline_first (s := s) hp rfl shown_tag (by rfl) e1 e2 e3 e4 ⟨?_, e5.2, e5.3⟩)
  rw [e5.core, hcore2]; rfl

theorem nodeF_coll {mp : Bool} {w : List EvData} (a t : Option Text) (i : Bool) (st : CollStyle) (hw : FirstF mp w) : NodeF (startE mp a t i st :: w ++ [endE mp]) := by
  refine ⟨startE mp a t i st, w ++ [endE mp], rfl, by cases mp <;> trivial, fun {T lb ind s x xs root sq mc R} hc hfl hi hn _ hx hf hR => ?_⟩
  exact inline_coll hw hc hi hn hx hf (.inl hfl) hR

/-! ### Simple keys -/

theorem starts_of {w : List EvData} (h : G .node w) : ∃ e es, w = e :: es ∧ startsNode e := by
  cases h <;> exact ⟨_, _, rfl, trivial⟩

theorem nodes_head {y : Sym} {w : List EvData} (h : G y w) (hy : y ≠ .node) : w = [] ∨ ∃ e es, w = e :: es ∧ startsNode e := by
  cases h with
  | nodesNil => exact .inl rfl
  | pairsNil => exact .inl rfl
  | nodesCons h1 h2 =>
    obtain ⟨e, es, rfl, h⟩ := starts_of h1
    exact .inr ⟨e, _, rfl, h⟩
  | pairsCons h1 h2 h3 =>
    obtain ⟨e, es, rfl, h⟩ := starts_of h1
    exact .inr ⟨e, _, rfl, h⟩
  | _ => exact absurd rfl hy

/-- Only the end is in the queue behind an empty collection. -/
theorem empty_of_peek {mp : Bool} {a t : Option Text} {i : Bool} {st : CollStyle} {w : List EvData} {s : Emitter} (hw : w = [] ∨ ∃ e es, w = e :: es ∧ startsNode e)
    (hp : Peek (startE mp a t i st) (w ++ [endE mp]) s.events) (h : s.emptyColl mp = true) : w = [] := by
  obtain ⟨r, h1, h2⟩ := hp
  obtain ⟨h2, _⟩ := h2 (by cases mp <;> rfl)
  rcases hw with rfl | ⟨e, es, rfl, hs⟩
  · rfl
  · exfalso
    cases r with
    | nil => cases h2
    | cons y r =>
      cases h2
      cases mp
      · simp only [Emitter.emptyColl, Bool.false_eq_true, if_false, Emitter.emptySequence, h1, startE] at h
        cases e <;> first | exact hs | cases h
      · simp only [Emitter.emptyColl, if_true, Emitter.emptyMapping, h1, startE] at h
        cases e <;> first | exact hs | cases h

/-- A node that is written as a simple key. -/
def NodeK (w : List EvData) : Prop :=
  ∃ e es, w = e :: es ∧ startsNode e ∧ ∀ {T : List TagDir} {lb : Break} {flow : Bool} {ind : Int} {s : Emitter} {x : EState} {xs : List EState} {root sq mp : Bool}
      {R : Text → Emitter → Prop},
    Ctx T lb s.core → flow = decide (s.flowLevel ≠ 0) → ind ≤ s.deeper true false → Noted T s e → Peek e es s.events → s.states = x :: xs → Fits T s.canonical w →
    s.simpleKey = true → (∀ t s', KeyOut T lb flow ind w (s.core.pop x xs) s t s' → R t s') → WritesFrom (emitNode e root sq mp true) es R s

theorem nodeK_alias (a : Text) : NodeK [.alias a] := by
  refine ⟨_, _, rfl, trivial, fun {T lb flow ind s x xs root sq mp R} hc hfl hi hn hp hx hf hk hR => Writes.done ?_⟩
  obtain ⟨r, hev, _⟩ := hp
  have hlen : strLen a ≤ 128 := by
    unfold Emitter.simpleKey at hk
    rw [hev, hn.1] at hk
    exact of_decide_eq_true hk
  unfold emitNode
  rw [tw_bind, tw_modE]
  refine tw_mono (tw_emitAlias (lb := lb) (flow := flow) (ind := ind) (x := x) (xs := xs) (hf _ List.mem_cons_self).1 (by exact hn.1) (by exact hn.2) (by exact hx)) fun _ t s' h => ?_
  obtain ⟨b, h1, h2, h3, h4, h5⟩ := h
  refine hR _ _ ⟨b, 0, _, _, 1, ?_, h4, h3, by omega, .zero _, fun bl i => ⟨_, .alias a, forall2_one (.alias a)⟩, h5⟩
  exact h1

theorem nodeK_scalar (a t : Option Text) (v : Text) (p q : Bool) (st : ScalarStyle) : NodeK [.scalar a t v p q st] := by
  refine ⟨_, _, rfl, trivial, fun {T lb flow ind s x xs root sq mp R} hc hfl hi hn hp hx hf hk hR => Writes.done ?_⟩
  obtain ⟨r, hev, _⟩ := hp
  obtain ⟨hg, hf⟩ := hf _ List.mem_cons_self
  have hsc := hn.2
  have hk' : Inline v ∧ s.propLen + byteLen v ≤ 128 := by
    obtain ⟨st0, hsc⟩ := hsc
    have hv : s.scalar.value = v := by rw [hsc]; exact analyze_value _ _
    unfold Emitter.simpleKey at hk
    rw [hev, hv] at hk
    simp only [Bool.and_eq_true, Bool.not_eq_true', decide_eq_true_eq] at hk
    refine ⟨?_, by unfold Emitter.propLen; exact hk.2⟩
    have h1 : (analyzeScalarData s.unicode v).multiline = false := by
      have := hk.1
      rw [hsc] at this
      exact this
    rw [analyze_multiline, List.any_eq_false] at h1
    exact fun c hc => by simpa using h1 c hc
  unfold emitNode
  rw [tw_bind, tw_modE]
  refine tw_emitScalar (T := T) (lb := lb) (flow := flow) (ind := ind) (x := x) (xs := xs) (a := a) (t := t) (v := v) (by exact hc) (by exact hfl) (by exact hi) (by exact hg) hf
    (by exact hn.congr rfl) (by exact hx) fun y s' ho hcore => hR _ _ ?_
  cases ho with
  | ink h1 h2 h3 h4 h5 h6 h7 h8 =>
    obtain ⟨k1, k2⟩ := h6 rfl hk'.1
    refine ⟨_, 0, _, _, 0, by simpa [lead, gap] using h1, h2, k1, ?_, .zero _, (inline_scalar h2 h3 h4 h5).means, hcore, h7, h8⟩
    have : Emitter.propLen { s with rootContext := root, sequenceContext := sq, mappingContext := mp, simpleKeyContext := true } = s.propLen := rfl
    omega
  | none _ h => cases h
  | empty _ h => cases h
  | block _ h => cases h

theorem nodeK_coll {mp : Bool} {w : List EvData} (a t : Option Text) (i : Bool) (st : CollStyle) (hw : w = [] ∨ ∃ e es, w = e :: es ∧ startsNode e) :
    NodeK (startE mp a t i st :: w ++ [endE mp]) := by
  refine ⟨startE mp a t i st, w ++ [endE mp], rfl, by cases mp <;> trivial, fun {T lb flow ind s x xs root sq mc R} hc hfl hi hn hp hx hf hk hR => ?_⟩
  have hk' : s.emptyColl mp = true ∧ s.propLen ≤ 128 := by
    obtain ⟨r, hev, _⟩ := hp
    unfold Emitter.simpleKey at hk
    rw [hev] at hk
    cases mp
    · simpa [startE, Emitter.emptyColl, Emitter.propLen] using hk
    · simpa [startE, Emitter.emptyColl, Emitter.propLen] using hk
  obtain rfl := empty_of_peek hw hp hk'.1
  refine tw_emitStart (lb := lb) hn fun y s1 hpo => ?_
  rw [if_pos (.inr (.inr (.inr hk'.1)))]
  have hcore : s1.core = s.core := by
    rcases hpo with ⟨_, _, _, rfl⟩ | ⟨_, _, _, _, _, h, _⟩
    · rfl
    · exact h.core
  have hcore2 : Emitter.core { s1 with state := firstS mp } = { s.core with state := firstS mp } := by rw [← hcore]; rfl
  refine flow_empty (T := T) (lb := lb) (x := x) (xs := xs) (by rw [hcore2]; exact ⟨hc.line, hc.best, hc.tags, hc.good, hc.once, hc.low, hc.level, hc.inFlow⟩) rfl
    (by exact (congrArg Core.states hcore).trans hx) fun s' hb => hR _ _ ?_
  have hb' : Behind (s.core.pop x xs) s' := ⟨by rw [hb.core, hcore2]; rfl, hb.2, hb.3⟩
  have hle := leaf_empty (flow := flow) (ind := ind) (lb := lb) (isStart_open mp) (isEnd_close mp)
  have hnb : NoBreaks [openC mp, closeC mp] := by
    intro c hc
    cases mp <;> simp [openC, closeC] at hc <;> rcases hc with rfl | rfl <;> decide
  have hdeep : Deep 1 (startE mp a t i st :: [] ++ [endE mp]) := Spec.Deep.inside (.zero []) (level_start ..) _
  rcases prop_lead (b := [openC mp, closeC mp]) (s2 := { s1 with state := firstS mp }) hpo rfl with ⟨e1, e2, e3, e4, e5⟩ | ⟨b1, tk1, e1, e2, e3⟩
  · refine ⟨[openC mp, closeC mp], 1, [] ++ openT mp :: ([] ++ [closeT mp]), _, 0, ?_, hle, hnb, by simp, hdeep, fun bl j => Means.coll (t' := shown s.canonical i t) ?_ shown_tag (.nil T mp) bl j, hb'⟩
    · rw [e5]; simp [lead, gap]
    · rw [e2, e3]; exact .none
  · refine ⟨b1 ++ 32 :: [openC mp, closeC mp], 1, tk1 ++ openT mp :: ([] ++ [closeT mp]), _, 0, ?_, (e1.scan flow ind).comp e1.line hle, ?_, ?_, hdeep,
      fun bl j => Means.coll e1.props shown_tag (.nil T mp) bl j, hb'⟩
    · rw [e3]; simp [lead, gap]
    · refine noBreaks_append e1.line fun c hc => ?_
      rcases List.mem_cons.mp hc with rfl | hc
      · decide
      · exact hnb c hc
    · have : Emitter.propLen { s with rootContext := root, sequenceContext := sq, mappingContext := mc, simpleKeyContext := true } = s.propLen := rfl
      simp only [List.length_append, List.length_cons, List.length_nil]
      omega

theorem nodeK_of {w : List EvData} (h : G .node w) : NodeK w := by
  cases h with
  | «alias» => exact nodeK_alias _
  | scalar => exact nodeK_scalar ..
  | seq a t i s h => exact nodeK_coll (mp := false) a t i s (nodes_head h (by simp))
  | map a t i s h => exact nodeK_coll (mp := true) a t i s (nodes_head h (by simp))

/-! ### Items of sequences and mappings -/

theorem Ctx.push {T : List TagDir} {lb : Break} {s s1 : Emitter} (h : Ctx T lb s.core) (hs : s1.core = s.core) (x : EState) (xs : List EState) : Ctx T lb (s1.core.pop x xs) := by
  rw [hs]
  exact h.pop x xs

theorem opens_more {e : EvData} {es : List EvData} (h : G .node (e :: es)) : opensNode e = true → es ≠ [] := by
  generalize hy : Sym.node = y at h
  generalize hw : e :: es = w at h
  cases h with
  | «alias» => cases hw; exact fun h => by cases h
  | scalar => cases hw; exact fun h => by cases h
  | seq => cases hw; simp
  | map => cases hw; simp
  | _ => cases hy

theorem Peek.left {e : EvData} {es fs q : List EvData} (h : Peek e (es ++ fs) q) (hne : opensNode e = true → es ≠ []) : Peek e es q := by
  obtain ⟨r, h1, h2⟩ := h
  refine ⟨r, h1, fun ho => ?_⟩
  obtain ⟨k1, k2⟩ := h2 ho
  refine ⟨?_, k2⟩
  rw [k1]
  cases es with
  | nil => exact absurd rfl (hne ho)
  | cons x es => rfl

theorem itemF_node {w : List EvData} (hG : G .node w) (hw : NodeF w) : ItemF false w := by
  obtain ⟨e, es, rfl, hs, hw⟩ := hw
  refine ⟨e, es, rfl, hs, opens_more hG, fun {T lb ind s R} hc hfl hi hn hp hf hR => ?_⟩
  unfold itemTail
  refine WritesFrom.bind ?_
  rw [tw_getE]
  refine WritesFrom.bind ?_
  refine tw_wide (lb := lb) hc.line fun br k t s1 hk hg => ?_
  have hcore := hk.core
  refine WritesFrom.bind ?_
  rw [tw_pushState]
  have hd := hc.deeper
  refine hw (T := T) (lb := lb) (ind := ind) (x := .flowSequenceItem) (xs := s1.states)
    (by exact (show Ctx T lb { s1.core with states := EState.flowSequenceItem :: s1.states } from by rw [hcore]; exact ⟨hc.line, hc.best, hc.tags, hc.good, hc.once, hc.low, hc.level, hc.inFlow⟩))
    (by show s1.flowLevel ≠ 0; rw [show s1.flowLevel = s.flowLevel from congrArg Core.flowLevel hcore]; exact hfl)
    (by
      have : s1.deeper true false = s.deeper true false := by
        unfold Emitter.deeper
        rw [show s1.indent = s.indent from congrArg Core.indent hcore, show s1.bestIndent = s.bestIndent from congrArg Core.bestIndent hcore]
      show ind ≤ s1.deeper true false
      omega)
    (by exact hn.congr hk.notes) (by exact hk.events ▸ hp) rfl (by show Fits T s1.canonical _; rw [show s1.canonical = s.canonical from congrArg Core.canonical hcore]; exact hf) fun u s2 ho => ?_
  obtain ⟨b, h, tk, rfl, h1, h2⟩ := ho
  refine hR _ _ ⟨br, k, b, h, tk, ?_, h1.scan.item, h1.deep, ?_, ⟨?_, h2.2, h2.3⟩⟩
  · rw [← hg]
    simp [lead]
  · obtain ⟨evs, g1, g2⟩ := h1.means false false
    exact ⟨evs, .item g1, g2⟩
  · rw [h2.core, ← hcore]; rfl

/-- The value of a pair in a flow mapping. -/
theorem flow_value {simple : Bool} {v : List EvData} (hG : G .node v) (hv : NodeF v) {T : List TagDir} {lb : Break} {ind : Int} {s : Emitter} {R : Text → Emitter → Prop}
    (hc : Ctx T lb s.core) (hfl : s.flowLevel ≠ 0) (hi : ind ≤ s.deeper true false) (hst : s.state = if simple = true then .flowMappingSimpleValue else .flowMappingValue)
    (hf : Fits T s.canonical v)
    (hR : ∀ t s', (∃ br k b h tk, t = gap lb br k ++ 58 :: 32 :: b ∧ (simple = true → br = false ∧ k = 0) ∧ Inline1 T lb true ind v b h tk ∧
      Behind { s.core with state := .flowMappingKey } s') → R t s') : Writes v R s := by
  obtain ⟨e, es, rfl, hs, hv⟩ := hv
  refine Writes.event (opens_more hG) hc (hf _ List.mem_cons_self).1 (hf _ List.mem_cons_self).2 fun s1 hs1 hn hp => ?_
  have hstep : ∀ {R}, WritesFrom (emitFlowMappingValue e simple) es R s1 → WritesFrom (emitterStep e) es R s1 := by
    intro R h
    unfold WritesFrom emitterStep at *
    rw [tw_bind, tw_getE, hs1.state.trans hst]
    cases simple <;> exact h
  refine hstep ?_
  unfold emitFlowMappingValue
  refine WritesFrom.bind ?_
  have fin : ∀ {t1 : Text} {s2 : Emitter} {br : Bool} {k : Nat}, s2.core = s.core → s2.notes = s1.notes → s2.events = s1.events → s2.whitespace = false → t1 = gap lb br k ++ [58] →
      (simple = true → br = false ∧ k = 0) →
      WritesFrom (do pushStateE .flowMappingKey; emitNode e false false true false) es (fun u s'' => R (t1 ++ u) s'') s2 := by
    intro t1 s2 br k h1 h2 h3 h4 h5 h6
    refine WritesFrom.bind ?_
    rw [tw_pushState]
    refine hv (T := T) (lb := lb) (ind := ind) (x := .flowMappingKey) (xs := s2.states)
      (by exact (show Ctx T lb { s2.core with states := EState.flowMappingKey :: s2.states } from by rw [h1]; exact ⟨hc.line, hc.best, hc.tags, hc.good, hc.once, hc.low, hc.level, hc.inFlow⟩))
      (by show s2.flowLevel ≠ 0; rw [show s2.flowLevel = s.flowLevel from congrArg Core.flowLevel h1]; exact hfl)
      (by
        have : s2.deeper true false = s.deeper true false := by
          unfold Emitter.deeper
          rw [show s2.indent = s.indent from congrArg Core.indent h1, show s2.bestIndent = s.bestIndent from congrArg Core.bestIndent h1]
        show ind ≤ s2.deeper true false
        omega)
      (by exact hn.congr h2) (by exact h3 ▸ hp) rfl (by show Fits T s2.canonical _; rw [show s2.canonical = s.canonical from congrArg Core.canonical h1]; exact hf) fun u s3 ho => ?_
    obtain ⟨b, h, tk, rfl, k1, k2⟩ := ho
    refine hR _ _ ⟨br, k, b, h, tk, ?_, h6, k1, ⟨?_, k2.2, k2.3⟩⟩
    · rw [lead_false (by exact h4), h5]; simp
    · rw [k2.core, ← h1]; rfl
  cases simple with
  | true =>
    rw [if_pos rfl, tw_writeIndicator]
    exact fin (br := false) (k := 0) hs1.core rfl rfl rfl rfl fun _ => ⟨rfl, rfl⟩
  | false =>
    rw [if_neg (by simp), tw_bind, tw_getE, tw_bind]
    refine tw_wide (lb := lb) ((congrArg Core.lineBreak hs1.core).trans hc.line) fun br k t s2 hk hg => ?_
    rw [tw_indicator]
    refine fin (br := br) (k := k) (hk.core.trans hs1.core) hk.notes hk.events rfl ?_ fun h => by cases h
    rw [← hg]; simp

theorem itemF_pair {k v : List EvData} (hGk : G .node k) (hGv : G .node v) (hk : NodeF k) (hkk : NodeK k) (hv : NodeF v) : ItemF true (k ++ v) := by
  obtain ⟨e, es, rfl, hs, hk⟩ := hk
  obtain ⟨e', es', he, _, hkk⟩ := hkk
  cases he
  refine ⟨e, es ++ v, rfl, hs, fun ho => by have := opens_more hGk ho; simp [this], fun {T lb ind s R} hc hfl hi hn hp hf hR => ?_⟩
  have hd := hc.deeper
  unfold itemTail
  refine WritesFrom.bind ?_
  rw [tw_getE]
  refine WritesFrom.bind ?_
  refine tw_wide (lb := lb) hc.line fun br0 k0 t s1 hk1 hg => ?_
  have hcore := hk1.core
  have hev : s1.events = s.events := hk1.events
  have hnotes : s1.notes = s.notes := hk1.notes
  have hcan : s1.canonical = s.canonical := congrArg Core.canonical hcore
  have hind1 : s1.indent = s.indent := congrArg Core.indent hcore
  have hbest : s1.bestIndent = s.bestIndent := congrArg Core.bestIndent hcore
  have hlev : s1.flowLevel = s.flowLevel := congrArg Core.flowLevel hcore
  have hdeep : ∀ {s2 : Emitter}, s2.indent = s1.indent → s2.bestIndent = s1.bestIndent → s2.deeper true false = s.deeper true false := by
    intro s2 h1 h2
    unfold Emitter.deeper
    rw [h1, h2, hind1, hbest]
  have hl1 : level (e :: es) = 0 := level_zero hGk
  refine WritesFrom.bind ?_
  rw [tw_getE]
  refine WritesFrom.bind ?_
  rw [tw_getE]
  have hp1 := hp.left (opens_more hGk)
  split
  · rename_i hsk
    rw [Bool.and_eq_true] at hsk
    refine WritesFrom.bind ?_
    rw [tw_pushState]
    refine WritesFrom.append ?_
    refine hkk (T := T) (lb := lb) (flow := true) (ind := ind) (x := .flowMappingSimpleValue) (xs := s1.states)
      (hc.push hcore s1.state (.flowMappingSimpleValue :: s1.states))
      (by exact (decide_eq_true (show s1.flowLevel ≠ 0 by rw [hlev]; exact hfl)).symm) (by have := hdeep (s2 := { s1 with states := EState.flowMappingSimpleValue :: s1.states }) rfl rfl; omega)
      (by exact hn.congr hnotes) (by exact hev ▸ hp1) rfl (by show Fits T s1.canonical _; rw [hcan]; exact hf.left) (by exact hsk.2) fun u s2 ho => ?_
    obtain ⟨kb, h1, tk1, al, kk, rfl, g1, g2, g3, g4, g5, g6⟩ := ho
    have hcore2 : s2.core = { s.core with state := .flowMappingSimpleValue } := by rw [g6.core, ← hcore]; rfl
    refine flow_value (simple := true) hGv hv (T := T) (lb := lb) (ind := ind) (by rw [hcore2]; exact hc.pop _ _)
      (by rw [show s2.flowLevel = s.flowLevel from congrArg Core.flowLevel hcore2]; exact hfl)
      (by have := hdeep (s2 := s2) ((show s2.indent = s.indent from congrArg Core.indent hcore2).trans hind1.symm) ((show s2.bestIndent = s.bestIndent from congrArg Core.bestIndent hcore2).trans hbest.symm); omega)
      (congrArg Core.state hcore2) (by rw [show s2.canonical = s.canonical from congrArg Core.canonical hcore2]; exact hf.right) fun w s3 ho => ?_
    obtain ⟨br, j, b, h2, tk2, rfl, q1, q2, q3⟩ := ho
    obtain ⟨rfl, rfl⟩ := q1 rfl
    refine hR _ _ ⟨br0, k0, _, _, _, ?_, item_simple (lb := lb) (j := kk) (br := false) (k := 1) g1 g2 g3 (.inr (by omega)) q2.scan, (g4.left _).max (q2.deep.right hl1), ?_, ⟨?_, q3.2, q3.3⟩⟩
    · rw [← hg]
      simp [gap, lead]
    · obtain ⟨ek, m1, m2⟩ := g5 false false
      obtain ⟨ev, m3, m4⟩ := q2.means false false
      exact ⟨_, .pair (.present m1) (.value (.present m3)), forall2_append m2 m4⟩
    · rw [q3.core, hcore2]; rfl
  · refine WritesFrom.bind ?_
    rw [tw_indicator]
    refine WritesFrom.bind ?_
    rw [tw_pushState]
    refine WritesFrom.append ?_
    refine hk (T := T) (lb := lb) (ind := ind) (x := .flowMappingValue) (xs := s1.states)
      (hc.push hcore s1.state (.flowMappingValue :: s1.states))
      (by show s1.flowLevel ≠ 0; rw [hlev]; exact hfl) (by
        have : Emitter.deeper { s1 with states := EState.flowMappingValue :: s1.states, column := s1.column + (lead s1).length + [63].length, whitespace := false, indention := false } true false = s.deeper true false := hdeep rfl rfl
        exact this ▸ (by omega))
      (by exact hn.congr hnotes) (by exact hev ▸ hp1) rfl (by show Fits T s1.canonical _; rw [hcan]; exact hf.left) fun u s2 ho => ?_
    obtain ⟨kb, h1, tk1, rfl, g1, g6⟩ := ho
    have hcore2 : s2.core = { s.core with state := .flowMappingValue } := by rw [g6.core, ← hcore]; rfl
    refine flow_value (simple := false) hGv hv (T := T) (lb := lb) (ind := ind) (by rw [hcore2]; exact hc.pop _ _)
      (by rw [show s2.flowLevel = s.flowLevel from congrArg Core.flowLevel hcore2]; exact hfl)
      (by have := hdeep (s2 := s2) ((show s2.indent = s.indent from congrArg Core.indent hcore2).trans hind1.symm) ((show s2.bestIndent = s.bestIndent from congrArg Core.bestIndent hcore2).trans hbest.symm); omega)
      (congrArg Core.state hcore2) (by rw [show s2.canonical = s.canonical from congrArg Core.canonical hcore2]; exact hf.right) fun w s3 ho => ?_
    obtain ⟨br, j, b, h2, tk2, rfl, q1, q2, q3⟩ := ho
    refine hR _ _ ⟨br0, k0, _, _, _, ?_, item_complex (lb := lb) (br0 := false) (k0 := 1) (br1 := br) (k1 := j) (br2 := false) (k2 := 1) g1.scan (.inr (by omega)) (.inr (by omega)) q2.scan,
      (g1.deep.left _).max (q2.deep.right hl1), ?_, ⟨?_, q3.2, q3.3⟩⟩
    · rw [← hg]
      simp [gap, lead]
    · obtain ⟨ek, m1, m2⟩ := g1.means false false
      obtain ⟨ev, m3, m4⟩ := q2.means false false
      exact ⟨_, .pair (.present m1) (.value (.present m3)), forall2_append m2 m4⟩
    · rw [q3.core, hcore2]; rfl

/-- What is shown for all nodes, and for what collections contain. -/
def FlowAll : Sym → List EvData → Prop
  | .node, w => NodeF w
  | .nodes, w => FirstF false w ∧ RestF false w
  | .pairs, w => FirstF true w ∧ RestF true w

/-- Every flow collection. -/
theorem flow_all {y : Sym} {w : List EvData} (h : G y w) : FlowAll y w := by
  induction h with
  | «alias» => exact nodeF_alias _
  | scalar => exact nodeF_scalar ..
  | seq a t i s _ ih => exact nodeF_coll (mp := false) a t i s ih.1
  | map a t i s _ ih => exact nodeF_coll (mp := true) a t i s ih.1
  | nodesNil => exact ⟨first_nil false, rest_nil false⟩
  | pairsNil => exact ⟨first_nil true, rest_nil true⟩
  | nodesCons h1 h2 ih1 ih2 => exact ⟨first_cons (itemF_node h1 ih1) (level_zero h1) ih2.2, rest_cons (itemF_node h1 ih1) (level_zero h1) ih2.2⟩
  | @pairsCons k v w h1 h2 h3 ih1 ih2 ih3 =>
    have hi := itemF_pair h1 h2 ih1 (nodeK_of h1) ih2
    have hl : level (k ++ v) = 0 := by rw [level_append, level_zero h1, level_zero h2]; rfl
    rw [← List.append_assoc]
    exact ⟨first_cons hi hl ih3.2, rest_cons hi hl ih3.2⟩

end LibYaml
