import Verif.Proofs.EmitterRun

/-! The event queue of the emitter, and the state after an emitter error. -/

namespace LibYaml

open Spec

/-! ### Events that are refused whatever the stacks look like -/

/-- The events a state accepts. -/
def accepts : EState → EvData → Prop
  | .streamStart, e => ∃ enc, e = .streamStart enc
  | .firstDocumentStart, e => (∃ v ts i, e = .documentStart v ts i) ∨ e = .streamEnd
  | .documentStart, e => (∃ v ts i, e = .documentStart v ts i) ∨ e = .streamEnd
  | .documentContent, e => isNode e
  | .documentEnd, e => ∃ i, e = .documentEnd i
  | .flowSequenceFirstItem, e | .flowSequenceItem, e | .blockSequenceFirstItem, e | .blockSequenceItem, e =>
    isNode e ∨ e = .sequenceEnd
  | .flowMappingFirstKey, e | .flowMappingKey, e | .blockMappingFirstKey, e | .blockMappingKey, e =>
    isNode e ∨ e = .mappingEnd
  | .flowMappingSimpleValue, e | .flowMappingValue, e | .blockMappingSimpleValue, e | .blockMappingValue, e => isNode e
  | .ended, _ => False

/-- The state refuses the event. -/
def Refuses (s : Emitter) (e : EvData) : Prop := ¬ (accepts s.state e ∧ GoodEvent s.canonical e)

/-- The automaton accepts what the state accepts. -/
theorem accepts_step {s : Emitter} {c : Cfg} {e : EvData} (hI : Inv s c) (hG : c.Good) (h : accepts s.state e) :
    c.step e ≠ none := by
  cases hI with
  | start hS hst hss ht =>
    rw [hst] at h
    obtain ⟨enc, rfl⟩ := h
    simp [Cfg.step]
  | docs hS hst hss ht =>
    rcases hst with hst | hst <;> rw [hst] at h <;> rcases h with ⟨v, ts, i, rfl⟩ | rfl <;> simp [Cfg.step]
  | ended hS hst hss => rw [hst] at h; exact h.elim
  | doc hS hF =>
    have hI := Inv.doc hS hF
    obtain ⟨f, K, rfl, hf, hK⟩ := hI.parts
    have node : ∀ g, f.advance = some g → isNode e → (Cfg.doc (f :: K)).step e ≠ none := by
      intro g hg hn
      cases e with
      | «alias» a => simp only [Cfg.step, hg, Option.map]; simp
      | scalar a t v p q st => simp only [Cfg.step, hg, Option.map]; simp
      | sequenceStart a t i st => simp only [Cfg.step, hg, Option.map]; simp
      | mappingStart a t i st => simp only [Cfg.step, hg, Option.map]; simp
      | _ => exact hn.elim
    cases hst : s.state with
    | streamStart => rw [hst] at hf; cases hf
    | firstDocumentStart => rw [hst] at hf; cases hf
    | documentStart => rw [hst] at hf; cases hf
    | ended => rw [hst] at hf; cases hf
    | documentContent =>
      rw [hst] at hf h; injection hf with hf; subst hf
      exact node _ rfl h
    | documentEnd =>
      rw [hst] at hf h; injection hf with hf; subst hf
      obtain ⟨i, rfl⟩ := h
      have hK : K = [] := by
        cases hG with
        | bottom _ => rfl
        | push _ h _ => exact absurd rfl h
      subst hK
      simp [Cfg.step]
    | flowSequenceFirstItem =>
      rw [hst] at hf h; injection hf with hf; subst hf
      rcases h with h | rfl
      · exact node _ rfl h
      · simp [Cfg.step]
    | flowSequenceItem =>
      rw [hst] at hf h; injection hf with hf; subst hf
      rcases h with h | rfl
      · exact node _ rfl h
      · simp [Cfg.step]
    | blockSequenceFirstItem =>
      rw [hst] at hf h; injection hf with hf; subst hf
      rcases h with h | rfl
      · exact node _ rfl h
      · simp [Cfg.step]
    | blockSequenceItem =>
      rw [hst] at hf h; injection hf with hf; subst hf
      rcases h with h | rfl
      · exact node _ rfl h
      · simp [Cfg.step]
    | flowMappingFirstKey =>
      rw [hst] at hf h; injection hf with hf; subst hf
      rcases h with h | rfl
      · exact node _ rfl h
      · simp [Cfg.step]
    | flowMappingKey =>
      rw [hst] at hf h; injection hf with hf; subst hf
      rcases h with h | rfl
      · exact node _ rfl h
      · simp [Cfg.step]
    | blockMappingFirstKey =>
      rw [hst] at hf h; injection hf with hf; subst hf
      rcases h with h | rfl
      · exact node _ rfl h
      · simp [Cfg.step]
    | blockMappingKey =>
      rw [hst] at hf h; injection hf with hf; subst hf
      rcases h with h | rfl
      · exact node _ rfl h
      · simp [Cfg.step]
    | flowMappingSimpleValue =>
      rw [hst] at hf h; injection hf with hf; subst hf
      exact node _ rfl h
    | flowMappingValue =>
      rw [hst] at hf h; injection hf with hf; subst hf
      exact node _ rfl h
    | blockMappingSimpleValue =>
      rw [hst] at hf h; injection hf with hf; subst hf
      exact node _ rfl h
    | blockMappingValue =>
      rw [hst] at hf h; injection hf with hf; subst hf
      exact node _ rfl h

/-- Refusal: the error is an emitter error, the state and the queue stay, and the flow level does not fall. -/
def Refused (s : Emitter) (err : EFail) (t : Emitter) : Prop :=
  (∃ p, err = .emitter p) ∧ Fixed s t ∧ s.flowLevel ≤ t.flowLevel

theorem refused_emitNode {s t : Emitter} {e : EvData} (a b c d : Bool) (hg : GoodProps s.canonical e)
    (hn : TagNoted t e) (hbad : ¬ (isNode e ∧ GoodEvent s.canonical e)) (h1 : Fixed s t) (h2 : s.flowLevel ≤ t.flowLevel) :
    ewp (emitNode e a b c d) (fun _ _ => False) (Refused s) t := by
  unfold emitNode
  rw [ewp_bind, ewp_modE]
  have bad : ewp (failE "expected SCALAR, SEQUENCE-START, MAPPING-START, or ALIAS" : EM Unit) (fun _ _ => False) (Refused s)
      { t with rootContext := a, sequenceContext := b, mappingContext := c, simpleKeyContext := d } :=
    ⟨⟨_, rfl⟩, ⟨h1.events, h1.canonical, h1.state⟩, h2⟩
  cases e with
  | streamStart enc => exact bad
  | streamEnd => exact bad
  | documentStart v ts i => exact bad
  | documentEnd i => exact bad
  | sequenceEnd => exact bad
  | mappingEnd => exact bad
  | «alias» an => exact absurd ⟨trivial, hg⟩ hbad
  | sequenceStart an tg i st => exact absurd ⟨trivial, hg⟩ hbad
  | mappingStart an tg i st => exact absurd ⟨trivial, hg⟩ hbad
  | scalar an tg v p q st =>
    dsimp only
    unfold emitScalar
    rw [ewp_bind]
    have hnn : (t.tagHandle = none ∧ t.tagSuffix = none) ↔
      (tg = none ∨ ¬ (t.canonical = true ∨ (p = false ∧ q = false))) := hn
    have hb : tg = none ∧ p = false ∧ q = false := by
      cases tg with
      | some x => exact absurd ⟨trivial, hg.1, hg.2, fun h => nomatch h⟩ hbad
      | none =>
        refine ⟨rfl, ?_⟩
        cases p
        · cases q
          · exact ⟨rfl, rfl⟩
          · exact absurd ⟨trivial, hg.1, hg.2, fun _ => Or.inr rfl⟩ hbad
        · exact absurd ⟨trivial, hg.1, hg.2, fun _ => Or.inl rfl⟩ hbad
    have := hnn.mpr (Or.inl hb.1)
    refine ewp_select (fun u hu hst hno => absurd ⟨this.1, this.2, hb.2⟩ hno) (fun pr hno => ?_)
    exact ⟨⟨_, rfl⟩, ⟨h1.events, h1.canonical, h1.state⟩, h2⟩

/-- What can happen before a node. -/
structure Before (s t : Emitter) : Prop where
  fixed : Fixed s t
  flow : s.flowLevel ≤ t.flowLevel
  tagHandle : t.tagHandle = s.tagHandle
  tagSuffix : t.tagSuffix = s.tagSuffix

theorem Before.refl (s : Emitter) : Before s s := ⟨⟨rfl, rfl, rfl⟩, Int.le_refl _, rfl, rfl⟩

theorem Before.kin {s t u : Emitter} (h : Before s t) (k : Kin t u) : Before s u :=
  ⟨⟨k.like.events.trans h.fixed.events, k.like.canonical.trans h.fixed.canonical, k.like.state.trans h.fixed.state⟩,
   by rw [k.like.flowLevel]; exact h.flow, k.tagHandle.trans h.tagHandle, k.tagSuffix.trans h.tagSuffix⟩

theorem Before.child {s t : Emitter} {e : EvData} {x : EState} (a b c d : Bool) (h : Before s t)
    (hg : GoodProps s.canonical e) (hn : TagNoted s e) (hbad : ¬ (isNode e ∧ GoodEvent s.canonical e)) :
    ewp (do pushStateE x; emitNode e a b c d) (fun _ _ => False) (Refused s) t := by
  rw [ewp_bind]
  apply ewp_pushState
  exact refused_emitNode a b c d hg (hn.congr h.tagHandle h.tagSuffix h.fixed.canonical) hbad
    ⟨h.fixed.events, h.fixed.canonical, h.fixed.state⟩ h.flow

theorem before_openFlow {Q : Unit → Emitter → Prop} {E : EFail → Emitter → Prop} {s : Emitter} {c : Nat} {first : Bool}
    (h : ∀ t, Before s t → Q () t) : ewp (whenE first (openFlow c)) Q E s := by
  rw [ewp_whenE]
  split
  · unfold openFlow
    rw [ewp_bind]
    refine (quiet_writeIndicator _ _ _ _).ewp fun _ u hu => ?_
    rw [ewp_bind]
    apply ewp_increaseIndent
    rw [ewp_modE]
    have := (Before.refl s).kin hu
    refine h _ ⟨⟨this.fixed.events, this.fixed.canonical, this.fixed.state⟩, ?_, this.tagHandle, this.tagSuffix⟩
    show s.flowLevel ≤ u.flowLevel + 1
    have := this.flow
    omega
  · exact h _ (Before.refl s)

theorem before_indent {Q : Unit → Emitter → Prop} {E : EFail → Emitter → Prop} {s : Emitter} {a b : Bool} {first : Bool}
    (h : ∀ t, Before s t → Q () t) : ewp (whenE first (increaseIndent a b)) Q E s := by
  rw [ewp_whenE]
  split
  · apply ewp_increaseIndent
    exact h _ ⟨⟨rfl, rfl, rfl⟩, Int.le_refl _, rfl, rfl⟩
  · exact h _ (Before.refl s)

/-- Bad tag directives are refused. -/
theorem refused_appendTags {Q : Unit → Emitter → Prop} {E : EFail → Emitter → Prop} {ts : List TagDir} :
    ∀ {s : Emitter}, ¬ ((∀ d ∈ ts, Handle d.handle ∧ d.pfx ≠ []) ∧ (ts.map TagDir.handle).Nodup
        ∧ ∀ d ∈ ts, d.handle ∉ s.tags.map TagDir.handle) →
    (∀ p us, E (.emitter p) { s with tags := us }) → ewp (appendTags ts) Q E s := by
  induction ts with
  | nil => intro s h _; exact absurd ⟨fun d hd => (List.not_mem_nil hd).elim, List.nodup_nil, fun d hd => (List.not_mem_nil hd).elim⟩ h
  | cons d ts ih =>
    intro s h hE
    unfold appendTags
    rw [ewp_bind]
    refine ewp_analyzeTagDirective (fun g1 g2 => ?_) (fun p _ => hE p s.tags)
    rw [ewp_bind]
    refine ewp_appendTagDirective (fun hnot => ?_) (fun h => nomatch h) (fun p _ _ => hE p s.tags)
    refine ih (fun hg => h ⟨?_, ?_, ?_⟩) (fun p us => hE p us)
    · intro d' hd'
      rcases List.mem_cons.mp hd' with rfl | hd'
      · exact ⟨g1, g2⟩
      · exact hg.1 d' hd'
    · rw [List.map_cons, List.nodup_cons]
      refine ⟨fun hm => ?_, hg.2.1⟩
      rw [List.mem_map] at hm
      obtain ⟨d', hd', he⟩ := hm
      refine hg.2.2 d' hd' ?_
      rw [he]; simp
    · intro d' hd'
      rcases List.mem_cons.mp hd' with rfl | hd'
      · exact hnot
      · intro hm
        refine hg.2.2 d' hd' ?_
        show d'.handle ∈ (s.tags ++ [d]).map TagDir.handle
        rw [List.map_append]
        exact List.mem_append_left _ hm

theorem refused_documentStart {s : Emitter} {e : EvData} (first : Bool)
    (hbad : ¬ (((∃ v ts i, e = .documentStart v ts i) ∨ e = .streamEnd) ∧ GoodEvent s.canonical e)) :
    ewp (emitDocumentStart e first) (fun _ _ => False) (Refused s) s := by
  cases e with
  | streamEnd => exact absurd ⟨Or.inr rfl, trivial⟩ hbad
  | documentStart v ts i =>
    have hb : ¬ GoodEvent s.canonical (.documentStart v ts i) := fun h => hbad ⟨Or.inl ⟨v, ts, i, rfl⟩, h⟩
    have hE : ∀ p us, Refused s (.emitter p) { s with tags := us } :=
      fun p us => ⟨⟨p, rfl⟩, ⟨rfl, rfl, rfl⟩, Int.le_refl _⟩
    show ewp (emitDocumentStartEvent v ts i first) _ _ s
    unfold emitDocumentStartEvent
    rw [ewp_bind]
    refine ewp_someE (fun hv => ?_) (fun x hx => ?_)
    · rw [ewp_bind]
      refine refused_appendTags (fun hg => hb ⟨fun x hx => ?_, hg.1, hg.2.1⟩) hE
      rw [hv] at hx; cases hx
    · refine ewp_analyzeVersion (fun hv => ?_) (fun p _ => hE p s.tags)
      rw [ewp_bind]
      refine refused_appendTags (fun hg => hb ⟨fun y hy => ?_, hg.1, hg.2.1⟩) hE
      rw [hx] at hy
      injection hy with hy
      rw [← hy]; exact hv
  | _ => exact ⟨⟨_, rfl⟩, ⟨rfl, rfl, rfl⟩, Int.le_refl _⟩

section
variable {s : Emitter} {e : EvData}

theorem refused_flowSequence (first : Bool) (hg : GoodProps s.canonical e) (hn : TagNoted s e)
    (hbad : ¬ ((isNode e ∨ e = .sequenceEnd) ∧ GoodEvent s.canonical e)) :
    ewp (emitFlowSequenceItem e first) (fun _ _ => False) (Refused s) s := by
  unfold emitFlowSequenceItem
  rw [ewp_bind]
  refine before_openFlow fun t ht => ?_
  rw [ewp_ite]
  split
  · rename_i he
    subst he
    exact absurd ⟨Or.inr rfl, trivial⟩ hbad
  · rw [ewp_bind]
    refine (Quiet.whenE (quiet_writeIndicator _ _ _ _)).ewp fun _ u hu => ?_
    rw [ewp_bind, ewp_getE, ewp_bind]
    refine (Quiet.whenE quiet_writeIndent).ewp fun _ v hv => ?_
    exact ((ht.kin hu).kin hv).child _ _ _ _ hg hn fun h => hbad ⟨Or.inl h.1, h.2⟩

theorem refused_flowKey (first : Bool) (hg : GoodProps s.canonical e) (hn : TagNoted s e)
    (hbad : ¬ ((isNode e ∨ e = .mappingEnd) ∧ GoodEvent s.canonical e)) :
    ewp (emitFlowMappingKey e first) (fun _ _ => False) (Refused s) s := by
  unfold emitFlowMappingKey
  rw [ewp_bind]
  refine before_openFlow fun t ht => ?_
  rw [ewp_ite]
  split
  · rename_i he
    subst he
    exact absurd ⟨Or.inr rfl, trivial⟩ hbad
  · rw [ewp_bind]
    refine (Quiet.whenE (quiet_writeIndicator _ _ _ _)).ewp fun _ u hu => ?_
    rw [ewp_bind, ewp_getE, ewp_bind]
    refine (Quiet.whenE quiet_writeIndent).ewp fun _ v hv => ?_
    rw [ewp_bind, ewp_getE, ewp_bind, ewp_getE, ewp_ite]
    split
    · exact ((ht.kin hu).kin hv).child _ _ _ _ hg hn fun h => hbad ⟨Or.inl h.1, h.2⟩
    · rw [ewp_bind]
      refine (quiet_writeIndicator _ _ _ _).ewp fun _ w hw => ?_
      exact (((ht.kin hu).kin hv).kin hw).child _ _ _ _ hg hn fun h => hbad ⟨Or.inl h.1, h.2⟩

theorem refused_flowValue (simple : Bool) (hg : GoodProps s.canonical e) (hn : TagNoted s e)
    (hbad : ¬ (isNode e ∧ GoodEvent s.canonical e)) :
    ewp (emitFlowMappingValue e simple) (fun _ _ => False) (Refused s) s := by
  unfold emitFlowMappingValue
  rw [ewp_bind]
  have hq : Quiet (if simple = true then writeIndicator [c! ':'] false false false
      else do
        whenE (← getE).tooWide writeIndent
        writeIndicator [c! ':'] true false false) :=
    Quiet.ite (quiet_writeIndicator _ _ _ _)
      (Quiet.getE.bind fun _ => (Quiet.whenE quiet_writeIndent).bind fun _ => quiet_writeIndicator _ _ _ _)
  refine hq.ewp fun _ t ht => ?_
  exact ((Before.refl s).kin ht).child _ _ _ _ hg hn hbad

theorem refused_blockSequence (first : Bool) (hg : GoodProps s.canonical e) (hn : TagNoted s e)
    (hbad : ¬ ((isNode e ∨ e = .sequenceEnd) ∧ GoodEvent s.canonical e)) :
    ewp (emitBlockSequenceItem e first) (fun _ _ => False) (Refused s) s := by
  unfold emitBlockSequenceItem
  rw [ewp_bind]
  have hb : ∀ {Q E}, (∀ t, Before s t → Q () t) →
      ewp (whenE first (do increaseIndent false ((← getE).mappingContext && !(← getE).indention))) Q E s := by
    intro Q E h
    have := before_indent (E := E) (a := false) (b := s.mappingContext && !s.indention) (first := first) h
    rw [ewp_whenE] at this ⊢
    split
    · rename_i hf
      rw [if_pos hf] at this
      rw [ewp_bind, ewp_getE, ewp_bind, ewp_getE]
      exact this
    · rename_i hf
      rw [if_neg hf] at this
      exact this
  refine hb fun t ht => ?_
  rw [ewp_ite]
  split
  · rename_i he
    subst he
    exact absurd ⟨Or.inr rfl, trivial⟩ hbad
  · rw [ewp_bind]
    refine quiet_writeIndent.ewp fun _ u hu => ?_
    rw [ewp_bind]
    refine (quiet_writeIndicator _ _ _ _).ewp fun _ v hv => ?_
    exact ((ht.kin hu).kin hv).child _ _ _ _ hg hn fun h => hbad ⟨Or.inl h.1, h.2⟩

theorem refused_blockKey (first : Bool) (hg : GoodProps s.canonical e) (hn : TagNoted s e)
    (hbad : ¬ ((isNode e ∨ e = .mappingEnd) ∧ GoodEvent s.canonical e)) :
    ewp (emitBlockMappingKey e first) (fun _ _ => False) (Refused s) s := by
  unfold emitBlockMappingKey
  rw [ewp_bind]
  refine before_indent fun t ht => ?_
  rw [ewp_ite]
  split
  · rename_i he
    subst he
    exact absurd ⟨Or.inr rfl, trivial⟩ hbad
  · rw [ewp_bind]
    refine quiet_writeIndent.ewp fun _ u hu => ?_
    rw [ewp_bind, ewp_getE, ewp_ite]
    split
    · exact (ht.kin hu).child _ _ _ _ hg hn fun h => hbad ⟨Or.inl h.1, h.2⟩
    · rw [ewp_bind]
      refine (quiet_writeIndicator _ _ _ _).ewp fun _ w hw => ?_
      exact ((ht.kin hu).kin hw).child _ _ _ _ hg hn fun h => hbad ⟨Or.inl h.1, h.2⟩

theorem refused_blockValue (simple : Bool) (hg : GoodProps s.canonical e) (hn : TagNoted s e)
    (hbad : ¬ (isNode e ∧ GoodEvent s.canonical e)) :
    ewp (emitBlockMappingValue e simple) (fun _ _ => False) (Refused s) s := by
  unfold emitBlockMappingValue
  rw [ewp_bind]
  have hq : Quiet (if simple = true then writeIndicator [c! ':'] false false false
      else do
        writeIndent
        writeIndicator [c! ':'] true false true) :=
    Quiet.ite (quiet_writeIndicator _ _ _ _) (quiet_writeIndent.bind fun _ => quiet_writeIndicator _ _ _ _)
  refine hq.ewp fun _ t ht => ?_
  exact ((Before.refl s).kin ht).child _ _ _ _ hg hn hbad

theorem refused_stateMachine (hg : GoodProps s.canonical e) (hn : TagNoted s e) (hbad : Refuses s e) :
    ewp (emitterStep e) (fun _ _ => False) (Refused s) s := by
  unfold emitterStep
  rw [ewp_bind, ewp_getE]
  unfold Refuses at hbad
  have now : ∀ p, ewp (failE p : EM Unit) (fun _ _ => False) (Refused s) s :=
    fun p => ⟨⟨_, rfl⟩, ⟨rfl, rfl, rfl⟩, Int.le_refl _⟩
  cases hst : s.state <;> rw [hst] at hbad <;> dsimp only [accepts] at hbad
  case streamStart =>
    dsimp only
    unfold emitStreamStart
    rw [ewp_bind, ewp_modE]
    cases e with
    | streamStart enc => exact absurd ⟨⟨enc, rfl⟩, trivial⟩ hbad
    | _ => exact ⟨⟨_, rfl⟩, ⟨rfl, rfl, rfl⟩, Int.le_refl _⟩
  case firstDocumentStart => exact refused_documentStart true hbad
  case documentStart => exact refused_documentStart false hbad
  case documentContent => exact (Before.refl s).child _ _ _ _ hg hn hbad
  case documentEnd =>
    cases e with
    | documentEnd i => exact absurd ⟨⟨i, rfl⟩, trivial⟩ hbad
    | _ => exact now _
  case flowSequenceFirstItem => exact refused_flowSequence true hg hn hbad
  case flowSequenceItem => exact refused_flowSequence false hg hn hbad
  case flowMappingFirstKey => exact refused_flowKey true hg hn hbad
  case flowMappingKey => exact refused_flowKey false hg hn hbad
  case flowMappingSimpleValue => exact refused_flowValue true hg hn hbad
  case flowMappingValue => exact refused_flowValue false hg hn hbad
  case blockSequenceFirstItem => exact refused_blockSequence true hg hn hbad
  case blockSequenceItem => exact refused_blockSequence false hg hn hbad
  case blockMappingFirstKey => exact refused_blockKey true hg hn hbad
  case blockMappingKey => exact refused_blockKey false hg hn hbad
  case blockMappingSimpleValue => exact refused_blockValue true hg hn hbad
  case blockMappingValue => exact refused_blockValue false hg hn hbad
  case ended => exact now _

/-- A refused event is refused by analysis and state machine together. -/
theorem refused_event {Q : Unit → Emitter → Prop} {k : EM Unit} (hbad : Refuses s e) :
    ewp (do analyzeEvent e; emitterStep e; k) Q (Refused s) s := by
  rw [ewp_bind]
  refine ewp_mono (ewp_analyzeEvent e s) ?_ ?_
  · rintro _ t ⟨hl, hg, hn⟩
    rw [ewp_bind]
    refine ewp_mono (refused_stateMachine (s := t) (e := e) (by rw [hl.canonical]; exact hg) hn ?_) ?_ ?_
    · unfold Refuses; rw [hl.state, hl.canonical]; exact hbad
    · exact fun _ _ h => h.elim
    · rintro err u ⟨h1, h2, h3⟩
      exact ⟨h1, ⟨h2.events.trans hl.events, h2.canonical.trans hl.canonical, h2.state.trans hl.state⟩,
        by rw [hl.flowLevel] at h3; exact h3⟩
  · rintro err t ⟨hl, p, hp, _⟩
    exact ⟨⟨p, hp⟩, hl.fixed, by rw [hl.flowLevel]; exact Int.le_refl _⟩

end

/-! ### The queue -/

/-- The state after a refused event: it is at the head of the queue and will be refused again. -/
def Stuck (s : Emitter) : Prop :=
  ∃ bad rest, s.events = bad :: rest ∧ needMore s.events = false ∧ Refuses s bad

/-- AtRest calls. -/
def AtRest (s : Emitter) (c : Cfg) : Prop := Inv s c ∧ c.Good ∧ needMore s.events = true

/-- The processed part of the queue. -/
def LoopOk (s : Emitter) (c : Cfg) (t : Emitter) : Prop :=
  ∃ done d, s.events = done ++ t.events ∧ c.run done = some d ∧ (∀ e ∈ done, GoodEvent s.canonical e) ∧ AtRest t d
    ∧ t.canonical = s.canonical

/-- The refused event. -/
def LoopErr (s : Emitter) (c : Cfg) (err : EFail) (t : Emitter) : Prop :=
  (∃ p, err = .emitter p) ∧ Stuck t ∧ 0 ≤ t.flowLevel ∧ t.canonical = s.canonical ∧
  ∃ done d bad rest, s.events = done ++ bad :: rest ∧ t.events = bad :: rest ∧ c.run done = some d ∧
    (∀ e ∈ done, GoodEvent s.canonical e) ∧ (d.step bad = none ∨ ¬ GoodEvent s.canonical bad)

theorem Inv.withEvents {s : Emitter} {c : Cfg} (h : Inv s c) (es : List EvData) : Inv { s with events := es } c := by
  cases h with
  | start hS h1 h2 h3 => exact .start ⟨hS.1, hS.2, hS.3⟩ h1 h2 h3
  | docs hS h1 h2 h3 => exact .docs ⟨hS.1, hS.2, hS.3⟩ h1 h2 h3
  | doc hS h1 => exact .doc ⟨hS.1, hS.2, hS.3⟩ h1
  | ended hS h1 h2 => exact .ended ⟨hS.1, hS.2, hS.3⟩ h1 h2

theorem Inv.like {s t : Emitter} {c : Cfg} (h : Inv s c) (k : Like s t) : Inv t c := by
  have hS : ∀ {s t : Emitter}, Like s t → Stacks s → Stacks t := fun k hS =>
    ⟨by rw [k.indents, k.state, k.states]; exact hS.1, by rw [k.flowLevel, k.state, k.states]; exact hS.2,
     by rw [k.states]; exact hS.3⟩
  cases h with
  | start h0 h1 h2 h3 => exact .start (hS k h0) (k.state.trans h1) (k.states.trans h2) (k.tags.trans h3)
  | docs h0 h1 h2 h3 => exact .docs (hS k h0) (by rw [k.state]; exact h1) (k.states.trans h2) (k.tags.trans h3)
  | doc h0 h1 => exact .doc (hS k h0) (by rw [k.state, k.states]; exact h1)
  | ended h0 h1 h2 => exact .ended (hS k h0) (k.state.trans h1) (k.states.trans h2)

theorem Stacks.flow_nonneg {s : Emitter} (h : Stacks s) : 0 ≤ s.flowLevel := by rw [h.flow]; omega

/-- Analysis and state machine together, from a good state. -/
theorem ewp_event {s : Emitter} {c : Cfg} {e : EvData} (hI : Inv s c) (hG : c.Good) {k : Unit → EM Unit}
    {Q : Unit → Emitter → Prop} {E : EFail → Emitter → Prop} (hk : ∀ t, StepOk s c e t → ewp (k ()) Q E t)
    (hE : ∀ err t, StepErr s c e err t → E err t) : ewp (do analyzeEvent e; emitterStep e; k ()) Q E s := by
  rw [ewp_bind]
  refine ewp_mono (ewp_analyzeEvent e s) ?_ ?_
  · rintro _ t ⟨hl, hg, hn⟩
    rw [ewp_bind]
    refine ewp_mono (ewp_stateMachine (hI.like hl) hG (by rw [hl.canonical]; exact hg) hn) ?_ ?_
    · rintro _ u ⟨d, h1, h2, h3, h4, h5⟩
      exact hk u ⟨d, h1, h2, h3.trans hl.events, h4.trans hl.canonical, by rw [hl.canonical] at h5; exact h5⟩
    · rintro err u ⟨h1, h2, h3⟩
      refine hE err u ⟨h1, ⟨h2.events.trans hl.events, h2.canonical.trans hl.canonical, h2.state.trans hl.state⟩, ?_⟩
      rw [hl.canonical] at h3; exact h3
  · rintro err t ⟨hl, p, hp, hnot⟩
    refine hE err t ⟨⟨p, hp⟩, hl.fixed, Or.inr fun hg => hnot ?_⟩
    cases e with
    | scalar a t v p q st => exact ⟨hg.1, hg.2.1⟩
    | «alias» a => exact hg
    | sequenceStart a t i st => exact hg
    | mappingStart a t i st => exact hg
    | _ => trivial

theorem ewp_emitLoop : ∀ (n : Nat) {s : Emitter} {c : Cfg}, Inv s c → c.Good → s.events.length ≤ n →
    ewp (emitLoop n) (fun _ t => LoopOk s c t) (LoopErr s c) s := by
  intro n
  induction n with
  | zero =>
    intro s c hI hG hn
    have h0 : s.events = [] := List.length_eq_zero_iff.mp (Nat.le_zero.mp hn)
    exact ⟨[], c, rfl, rfl, fun e he => (List.not_mem_nil he).elim, ⟨hI, hG, (show needMore s.events = true by rw [h0]; rfl)⟩, rfl⟩
  | succ n ih =>
    intro s c hI hG hn
    unfold emitLoop
    rw [ewp_bind, ewp_getE, ewp_ite]
    split
    · rename_i hm
      exact ⟨[], c, rfl, rfl, fun e he => (List.not_mem_nil he).elim, ⟨hI, hG, hm⟩, rfl⟩
    · rename_i hm
      cases hev : s.events with
      | nil => rw [hev] at hm; exact absurd rfl hm
      | cons e rest =>
        dsimp only
        have hm' : needMore (e :: rest) = false := by
          rw [hev] at hm
          cases h : needMore (e :: rest) with
          | true => exact absurd h hm
          | false => rfl
        refine ewp_mono ?_ (Q := fun _ t => LoopOk s c t)
          (E := fun err t => (StepErr s c e err t ∧ 0 ≤ t.flowLevel) ∨ LoopErr s c err t) (fun _ _ h => h) ?_
        · by_cases hR : Refuses s e
          · refine ewp_mono (refused_event hR) (Q := fun _ _ => False) (fun _ _ h => h.elim) ?_
            rintro err t ⟨h1, h2, h3⟩
            refine Or.inl ⟨⟨h1, h2, ?_⟩, Int.le_trans hI.stacks.flow_nonneg h3⟩
            by_cases hs : c.step e = none
            · exact Or.inl hs
            · refine Or.inr fun hg => ?_
              -- the automaton accepts, so the state machine does
              have := ewp_event hI hG (e := e) (k := fun _ => pure ()) (Q := fun _ _ => True)
                (E := fun _ _ => False) (fun _ _ => trivial) (fun err t hse => by
                  rcases hse.2.2 with h | h
                  · exact hs h
                  · exact h hg)
              have h2 := refused_event (k := pure ()) (Q := fun _ _ => False) hR
              unfold ewp at this h2
              split at this
              · rename_i heq; rw [heq] at h2; exact h2
              · exact this
          · refine ewp_event hI hG (k := fun _ => do
                modE fun s => { s with events := s.events.tail }
                emitLoop n) (fun t ht => ?_) (fun err t hse => ?_)
            · obtain ⟨d, h1, h2, h3, h4, h5⟩ := ht
              rw [ewp_bind, ewp_modE]
              have hev' : t.events.tail = rest := by rw [h3, hev]; rfl
              rw [hev']
              have hlen : rest.length ≤ n := by rw [hev, List.length_cons] at hn; omega
              refine ewp_mono (ih (h2.withEvents rest) (hG.step h1) hlen) ?_ ?_
              · rintro _ u ⟨done, d', k1, k2, k3, k4, k5⟩
                refine ⟨e :: done, d', ?_, ?_, ?_, k4, k5.trans h4⟩
                · rw [hev]; exact congrArg (e :: ·) k1
                · rw [Cfg.run, h1]; exact k2
                · intro x hx
                  rcases List.mem_cons.mp hx with rfl | hx
                  · exact h5
                  · have := k3 x hx
                    rw [show ({ t with events := rest } : Emitter).canonical = t.canonical from rfl, h4] at this
                    exact this
              · rintro err u ⟨k1, k2, k3, k4, done, d', bad, rest', k5, k6, k7, k8, k9⟩
                right
                rw [show ({ t with events := rest } : Emitter).canonical = t.canonical from rfl, h4] at k4 k8 k9
                refine ⟨k1, k2, k3, k4, e :: done, d', bad, rest', ?_, k6, ?_, ?_, k9⟩
                · rw [hev]; exact congrArg (e :: ·) k5
                · rw [Cfg.run, h1]; exact k7
                · intro x hx
                  rcases List.mem_cons.mp hx with rfl | hx
                  · exact h5
                  · exact k8 x hx
            · unfold Refuses at hR
              have hR' : accepts s.state e ∧ GoodEvent s.canonical e := Classical.not_not.mp hR
              rcases hse.2.2 with h | h
              · exact absurd h (accepts_step hI hG hR'.1)
              · exact absurd hR'.2 h
        · rintro err t (⟨⟨h1, h2, h3⟩, hfl⟩ | h)
          · refine ⟨h1, ⟨e, rest, by rw [h2.events, hev], by rw [h2.events, hev]; exact hm', ?_⟩, hfl, h2.canonical,
              [], c, e, rest, hev, by rw [h2.events, hev], rfl, fun x hx => (List.not_mem_nil hx).elim, h3⟩
            unfold Refuses
            rw [h2.state, h2.canonical]
            rintro ⟨k1, k2⟩
            rcases h3 with h3 | h3
            · exact accepts_step hI hG k1 h3
            · exact h3 k2
          · exact h

/-! ### Calls -/

theorem levelLoop_append {es xs : List EvData} {l : Int} (h : levelLoop es l = false) : levelLoop (es ++ xs) l = false := by
  induction es generalizing l with
  | nil => cases h
  | cons e es ih =>
    rw [List.cons_append]
    unfold levelLoop at h ⊢
    split
    · rfl
    · rename_i hn
      rw [if_neg hn] at h
      exact ih h

theorem needMore_append {es xs : List EvData} (h : needMore es = false) : needMore (es ++ xs) = false := by
  cases es with
  | nil => cases h
  | cons e es =>
    rw [List.cons_append]
    unfold needMore at h ⊢
    dsimp only at h ⊢
    split
    · rfl
    · rename_i n hn
      rw [hn] at h
      dsimp only at h
      split
      · rfl
      · rename_i hlt
        rw [← List.cons_append]
        apply levelLoop_append
        split at h
        · rename_i hgt
          simp only [List.length_cons, List.length_append] at hlt hgt
          omega
        · exact h

/-- Not more than three events are held back, behind the start of a document or collection. -/
theorem needMore_length {es : List EvData} (h : needMore es = true) :
    es = [] ∨ ∃ e rest n, es = e :: rest ∧ accumulate e = some n ∧ es.length ≤ n ∧ levelLoop es 0 = true := by
  cases es with
  | nil => exact Or.inl rfl
  | cons e es =>
    right
    unfold needMore at h
    dsimp only at h
    split at h
    · cases h
    · rename_i n hn
      split at h
      · cases h
      · rename_i hgt
        exact ⟨e, es, n, rfl, hn, by omega, h⟩

/-- A call after success. -/
theorem ewp_emit {s : Emitter} {c : Cfg} (e : EvData) (h : AtRest s c) :
    ewp (emit e) (fun _ t => LoopOk { s with events := s.events ++ [e] } c t)
      (LoopErr { s with events := s.events ++ [e] } c) s := by
  unfold emit
  rw [ewp_bind, ewp_opE, ewp_bind, ewp_modE, ewp_bind, ewp_getE]
  exact ewp_emitLoop _ (h.1.withEvents _) h.2.1 (Nat.le_refl _)

/-- A call after an emitter error. -/
theorem stuck_emit {s : Emitter} (e : EvData) (h : Stuck s) (hf : 0 ≤ s.flowLevel) :
    ewp (emit e) (fun _ _ => False)
      (fun err t => (∃ p, err = .emitter p) ∧ Stuck t ∧ 0 ≤ t.flowLevel ∧ t.canonical = s.canonical
        ∧ t.events = s.events ++ [e]) s := by
  obtain ⟨bad, rest, h1, h2, h3⟩ := h
  unfold emit
  rw [ewp_bind, ewp_opE, ewp_bind, ewp_modE, ewp_bind, ewp_getE]
  have hm : needMore (bad :: (rest ++ [e])) = false := by
    rw [← List.cons_append]; rw [h1] at h2; exact needMore_append h2
  generalize hs0 : ({ s with events := s.events ++ [e] } : Emitter) = s0
  have hev : s0.events = bad :: (rest ++ [e]) := by rw [← hs0, ← List.cons_append, ← h1]
  have hst : s0.state = s.state := by rw [← hs0]
  have hca : s0.canonical = s.canonical := by rw [← hs0]
  have hfl : s0.flowLevel = s.flowLevel := by rw [← hs0]
  have hlen : s0.events.length = (rest ++ [e]).length + 1 := by rw [hev, List.length_cons]
  rw [hlen]
  unfold emitLoop
  rw [ewp_bind, ewp_getE, ewp_ite, if_neg (by rw [hev, hm]; simp)]
  rw [hev]
  dsimp only
  refine ewp_mono (refused_event (Q := fun _ _ => False) (s := s0) ?_) (fun _ _ h => h) ?_
  · unfold Refuses; rw [hst, hca]; exact h3
  · rintro err t ⟨k1, k2, k3⟩
    refine ⟨k1, ⟨bad, rest ++ [e], k2.events.trans hev, by rw [k2.events, hev]; exact hm, ?_⟩, ?_, k2.canonical.trans hca, ?_⟩
    · unfold Refuses; rw [k2.state, k2.canonical, hst, hca]; exact h3
    · omega
    · rw [k2.events, ← hs0]

/-- All calls, from a good state. -/
theorem ewp_emitAll : ∀ (evs : List EvData) {s : Emitter} {c : Cfg}, AtRest s c →
    ewp (emitAll evs)
      (fun _ t => ∃ done d, s.events ++ evs = done ++ t.events ∧ c.run done = some d ∧
        (∀ e ∈ done, GoodEvent s.canonical e) ∧ AtRest t d ∧ t.canonical = s.canonical)
      (fun err t => (∃ p, err = .emitter p) ∧ Stuck t ∧ 0 ≤ t.flowLevel ∧ ∃ done d bad rest, s.events ++ evs = done ++ bad :: rest ∧
        c.run done = some d ∧ (∀ e ∈ done, GoodEvent s.canonical e) ∧ (d.step bad = none ∨ ¬ GoodEvent s.canonical bad)) s := by
  intro evs
  induction evs with
  | nil =>
    intro s c h
    exact ⟨[], c, List.append_nil _, rfl, fun e he => (List.not_mem_nil he).elim, h, rfl⟩
  | cons e evs ih =>
    intro s c h
    unfold emitAll
    rw [ewp_bind]
    refine ewp_mono (ewp_emit e h) ?_ ?_
    · rintro _ t ⟨done, d, h1, h2, h3, h4, h5⟩
      have h1' : s.events ++ [e] = done ++ t.events := h1
      have h5' : t.canonical = s.canonical := h5
      have h3' : ∀ e ∈ done, GoodEvent s.canonical e := h3
      have hcat : s.events ++ e :: evs = done ++ (t.events ++ evs) := by
        rw [← List.append_assoc, ← h1', List.append_assoc, List.singleton_append]
      refine ewp_mono (ih h4) ?_ ?_
      · rintro _ u ⟨done', d', k1, k2, k3, k4, k5⟩
        refine ⟨done ++ done', d', ?_, ?_, ?_, k4, k5.trans h5'⟩
        · rw [hcat, k1, List.append_assoc]
        · rw [Cfg.run_append, h2]; exact k2
        · intro x hx
          rcases List.mem_append.mp hx with hx | hx
          · exact h3' x hx
          · have := k3 x hx; rw [h5'] at this; exact this
      · rintro err u ⟨k1, k2, k3, done', d', bad, rest, k5, k6, k7, k8⟩
        refine ⟨k1, k2, k3, done ++ done', d', bad, rest, ?_, ?_, ?_, ?_⟩
        · rw [hcat, k5, List.append_assoc]
        · rw [Cfg.run_append, h2]; exact k6
        · intro x hx
          rcases List.mem_append.mp hx with hx | hx
          · exact h3' x hx
          · have := k7 x hx; rw [h5'] at this; exact this
        · rw [h5'] at k8; exact k8
    · rintro err t ⟨k1, k2, k3, k4, done, d, bad, rest, k5, k6, k7, k8, k9⟩
      refine ⟨k1, k2, k3, done, d, bad, rest ++ evs, ?_, k7, k8, k9⟩
      have k5' : s.events ++ [e] = done ++ bad :: rest := k5
      rw [← List.singleton_append (x := e), ← List.append_assoc, k5', List.append_assoc, List.cons_append]

/-- Calls of a client that goes on after errors: the outcomes and the final state. -/
def emitEach : List EvData → Emitter → List (Except EFail Unit) × Emitter
  | [], s => ([], s)
  | e :: es, s =>
    match emitEach es (emit e s).st with
    | (rs, t) => ((emit e s).val :: rs, t)

/-- Good or stuck, between calls. -/
def Sound (s : Emitter) : Prop := (∃ c, AtRest s c) ∨ (Stuck s ∧ 0 ≤ s.flowLevel)

theorem Sound.flow {s : Emitter} (h : Sound s) : 0 ≤ s.flowLevel := by
  rcases h with ⟨c, h⟩ | h
  · exact h.1.stacks.flow_nonneg
  · exact h.2

theorem sound_emit {s : Emitter} (e : EvData) (h : Sound s) :
    ewp (emit e) (fun _ t => Sound t) (fun err t => (∃ p, err = .emitter p) ∧ Sound t) s := by
  rcases h with ⟨c, h⟩ | h
  · refine ewp_mono (ewp_emit e h) ?_ ?_
    · rintro _ t ⟨done, d, _, _, _, h4, _⟩
      exact Or.inl ⟨d, h4⟩
    · rintro err t ⟨h1, h2, h3, _⟩
      exact ⟨h1, Or.inr ⟨h2, h3⟩⟩
  · refine ewp_mono (stuck_emit e h.1 h.2) (fun _ _ h => h.elim) ?_
    rintro err t ⟨h1, h2, h3, _⟩
    exact ⟨h1, Or.inr ⟨h2, h3⟩⟩

theorem sound_emitEach : ∀ (evs : List EvData) {s : Emitter}, Sound s →
    (∀ r ∈ (emitEach evs s).1, r = .ok () ∨ ∃ p, r = .error (.emitter p)) ∧ Sound (emitEach evs s).2 := by
  intro evs
  induction evs with
  | nil => intro s h; exact ⟨fun r hr => (List.not_mem_nil hr).elim, h⟩
  | cons e es ih =>
    intro s h
    have hk := sound_emit e h
    unfold ewp at hk
    have hs : Sound (emit e s).st ∧ ((emit e s).val = .ok () ∨ ∃ p, (emit e s).val = .error (.emitter p)) := by
      split at hk
      · rename_i a heq; exact ⟨hk, Or.inl heq⟩
      · rename_i err heq
        obtain ⟨⟨p, hp⟩, h2⟩ := hk
        exact ⟨h2, Or.inr ⟨p, by rw [heq, hp]⟩⟩
    have := ih hs.1
    refine ⟨fun r hr => ?_, this.2⟩
    rcases List.mem_cons.mp hr with rfl | hr
    · exact hs.2
    · exact this.1 r hr

/-! ### Nesting heights -/

/-- What is open. -/
def Cfg.height : Cfg → Int
  | .start => 0
  | .docs => 1
  | .doc fs => 1 + fs.length
  | .ended => 0

theorem height_step {c d : Cfg} {e : EvData} (h : c.step e = some d) : d.height = c.height + levelChange e := by
  match c, e with
  | .start, .streamStart enc => simp only [Cfg.step] at h; injection h with h; subst h; rfl
  | .docs, .documentStart v ts i => simp only [Cfg.step] at h; injection h with h; subst h; rfl
  | .docs, .streamEnd => simp only [Cfg.step] at h; injection h with h; subst h; rfl
  | .doc (f :: K), .alias a =>
    simp only [Cfg.step, Option.map_eq_some_iff] at h
    obtain ⟨g, hg, rfl⟩ := h
    simp [Cfg.height, levelChange]
  | .doc (f :: K), .scalar a t v p q st =>
    simp only [Cfg.step, Option.map_eq_some_iff] at h
    obtain ⟨g, hg, rfl⟩ := h
    simp [Cfg.height, levelChange]
  | .doc (f :: K), .sequenceStart a t i st =>
    simp only [Cfg.step, Option.map_eq_some_iff] at h
    obtain ⟨g, hg, rfl⟩ := h
    simp only [Cfg.height, levelChange, List.length_cons]; omega
  | .doc (f :: K), .mappingStart a t i st =>
    simp only [Cfg.step, Option.map_eq_some_iff] at h
    obtain ⟨g, hg, rfl⟩ := h
    simp only [Cfg.height, levelChange, List.length_cons]; omega
  | .doc (.seq :: K), .sequenceEnd =>
    simp only [Cfg.step] at h; injection h with h; subst h
    simp only [Cfg.height, levelChange, List.length_cons]; omega
  | .doc (.mapKey :: K), .mappingEnd =>
    simp only [Cfg.step] at h; injection h with h; subst h
    simp only [Cfg.height, levelChange, List.length_cons]; omega
  | .doc [.docEnd], .documentEnd i => simp only [Cfg.step] at h; injection h with h; subst h; rfl

theorem height_nonneg (c : Cfg) : 0 ≤ c.height := by
  cases c <;> simp only [Cfg.height] <;> omega

theorem levelLoop_run {es : List EvData} {c d : Cfg} {l : Int} (h : levelLoop es l = true) (hl : 0 < l)
    (hr : c.run es = some d) : c.height < d.height + l := by
  induction es generalizing c l with
  | nil => injection hr with hr; subst hr; omega
  | cons e es ih =>
    unfold levelLoop at h
    split at h
    · cases h
    · rename_i hne
      rw [Cfg.run] at hr
      split at hr
      · cases hr
      · rename_i c' hc
        have hs := height_step hc
        have hge : -1 ≤ levelChange e := by cases e <;> simp [levelChange]
        have := ih h (by omega) hr
        omega

/-- Nothing is held back when the stream is complete. -/
theorem nothing_held {es : List EvData} {c : Cfg} (h : needMore es = true) (hr : c.run es = some .ended) : es = [] := by
  rcases needMore_length h with h | ⟨e, rest, n, rfl, hn, _, hl⟩
  · exact h
  · exfalso
    have h1 : levelChange e = 1 := by cases e <;> simp [accumulate] at hn <;> rfl
    unfold levelLoop at hl
    rw [h1] at hl
    simp only [Int.zero_add, if_neg (show ¬ (1 : Int) = 0 by omega)] at hl
    rw [Cfg.run] at hr
    split at hr
    · cases hr
    · rename_i c' hc
      have hlt := levelLoop_run hl (by omega) hr
      have hs := height_step hc
      have h0 := height_nonneg c
      rw [h1] at hs
      have he : Cfg.ended.height = 0 := rfl
      omega

end LibYaml
