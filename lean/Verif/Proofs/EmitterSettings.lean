import Verif.Proofs.EmitterRun

/-! The settings stay as they were chosen at the start of the stream. -/

namespace LibYaml

open Spec

/-- The settings of an emitter that has started a stream. -/
structure Settings where
  encoding : Option Enc
  bestIndent : Int
  bestWidth : Int
  lineBreak : Option Break
  deriving DecidableEq, Repr

def Emitter.settings (s : Emitter) : Settings := ⟨s.encoding, s.bestIndent, s.bestWidth, s.lineBreak⟩

/-- The settings stay. -/
def KeepsSet {α : Type} (m : EM α) : Prop := ∀ s, (m s).st.settings = s.settings

section
variable {α β : Type}

theorem KeepsSet.bind {m : EM α} {k : α → EM β} (hm : KeepsSet m) (hk : ∀ a, KeepsSet (k a)) : KeepsSet (m >>= k) := by
  intro s
  show (EM.bind m k s).st.settings = s.settings
  unfold EM.bind
  cases h : (m s).val with
  | error e => exact hm s
  | ok a => exact (hk a _).trans (hm s)

theorem KeepsSet.pure (a : α) : KeepsSet (pure a : EM α) := fun _ => rfl
theorem KeepsSet.getE : KeepsSet getE := fun _ => rfl
theorem KeepsSet.modE {f : Emitter → Emitter} (h : ∀ s, (f s).settings = s.settings) : KeepsSet (modE f) := h
theorem KeepsSet.modBind {f : Emitter → Emitter} {k : Unit → EM α} (h : ∀ s, (f s).settings = s.settings)
    (hk : ∀ a, KeepsSet (k a)) : KeepsSet (LibYaml.modE f >>= k) := KeepsSet.bind h hk
theorem KeepsSet.opE (op : EOp) : KeepsSet (opE op) := fun _ => rfl
theorem KeepsSet.failE (p : String) : KeepsSet (failE p : EM α) := fun _ => rfl
theorem KeepsSet.whenE {b : Bool} {m : EM Unit} (h : KeepsSet m) : KeepsSet (whenE b m) := by
  cases b
  · exact KeepsSet.pure ()
  · exact h
theorem KeepsSet.ite {c : Prop} [Decidable c] {m n : EM α} (hm : KeepsSet m) (hn : KeepsSet n) : KeepsSet (if c then m else n) := by
  split
  · exact hm
  · exact hn
theorem Quiet.settled {m : EM α} (h : Quiet m) : KeepsSet m := by
  intro s
  obtain ⟨a, _, hk⟩ := h s
  have := hk.like
  unfold Emitter.settings
  rw [this.encoding, this.bestIndent, this.bestWidth, this.lineBreak]
theorem KeepsSet.someE {x : Option α} {f : α → EM Unit} (h : ∀ a, KeepsSet (f a)) : KeepsSet (someE x f) := by
  cases x with
  | none => exact KeepsSet.pure _
  | some a => exact h a
end

theorem settled_pushState (x : EState) : KeepsSet (pushStateE x) := (KeepsSet.opE _).bind fun _ => KeepsSet.modE fun _ => rfl
theorem settled_popStateE : KeepsSet popStateE := by
  intro s; unfold popStateE; split <;> rfl
theorem settled_popIndent : KeepsSet popIndent := by
  intro s; unfold popIndent; split <;> rfl
theorem settled_increaseIndent (a b : Bool) : KeepsSet (increaseIndent a b) :=
  (KeepsSet.opE _).bind fun _ => KeepsSet.modE fun _ => rfl

theorem settled_processScalar : KeepsSet processScalar := by
  intro s
  by_cases h : s.scalar.style = .any
  · show (EM.bind getE _ s).st.settings = _
    unfold EM.bind getE
    dsimp only
    rw [h]
  · have := ewp_processScalar (s := s) h (E := fun _ _ => False) (Q := fun _ t => t.settings = s.settings) fun t ht => by
      have := ht.like
      unfold Emitter.settings
      rw [this.encoding, this.bestIndent, this.bestWidth, this.lineBreak]
    unfold ewp at this
    split at this
    · exact this
    · exact this.elim

theorem settled_select (p q : Bool) (st : ScalarStyle) : KeepsSet (selectScalarStyle p q st) := by
  unfold selectScalarStyle
  exact KeepsSet.getE.bind fun _ => KeepsSet.ite (KeepsSet.failE _) (KeepsSet.modE fun _ => rfl)

theorem settled_emitNode (e : EvData) (a b c d : Bool) : KeepsSet (emitNode e a b c d) := by
  unfold emitNode
  refine KeepsSet.modBind (fun _ => rfl) fun _ => ?_
  cases e with
  | «alias» an =>
    exact quiet_processAnchor.settled.bind fun _ => KeepsSet.getE.bind fun _ => (KeepsSet.whenE (quiet_putC _).settled).bind
      fun _ => settled_popStateE
  | scalar an tg v p q st =>
    exact (settled_select p q st).bind fun _ => quiet_processAnchor.settled.bind fun _ => quiet_processTag.settled.bind
      fun _ => (settled_increaseIndent _ _).bind fun _ => settled_processScalar.bind fun _ => settled_popIndent.bind
      fun _ => settled_popStateE
  | sequenceStart an tg i st =>
    exact quiet_processAnchor.settled.bind fun _ => quiet_processTag.settled.bind fun _ => KeepsSet.getE.bind fun _ =>
      KeepsSet.modE fun _ => rfl
  | mappingStart an tg i st =>
    exact quiet_processAnchor.settled.bind fun _ => quiet_processTag.settled.bind fun _ => KeepsSet.getE.bind fun _ =>
      KeepsSet.modE fun _ => rfl
  | _ => exact KeepsSet.failE _

theorem settled_openFlow (c : Nat) : KeepsSet (openFlow c) :=
  (quiet_writeIndicator _ _ _ _).settled.bind fun _ => (settled_increaseIndent _ _).bind fun _ => KeepsSet.modE fun _ => rfl

theorem settled_closeFlow (c : Nat) (f : Bool) : KeepsSet (closeFlow c f) := by
  unfold closeFlow
  exact KeepsSet.modBind (fun _ => rfl) fun _ => settled_popIndent.bind fun _ => KeepsSet.getE.bind fun _ =>
    (KeepsSet.whenE ((quiet_writeIndicator _ _ _ _).bind fun _ => quiet_writeIndent).settled).bind fun _ =>
    (quiet_writeIndicator _ _ _ _).settled.bind fun _ => settled_popStateE

theorem settled_push_node (x : EState) (e : EvData) (a b c d : Bool) : KeepsSet (do pushStateE x; emitNode e a b c d) :=
  (settled_pushState x).bind fun _ => settled_emitNode e a b c d

theorem settled_flowSequence (e : EvData) (f : Bool) : KeepsSet (emitFlowSequenceItem e f) := by
  unfold emitFlowSequenceItem
  exact (KeepsSet.whenE (settled_openFlow _)).bind fun _ => KeepsSet.ite (settled_closeFlow _ _)
    ((KeepsSet.whenE (quiet_writeIndicator _ _ _ _).settled).bind fun _ => KeepsSet.getE.bind fun _ =>
      (KeepsSet.whenE quiet_writeIndent.settled).bind fun _ => settled_push_node _ _ _ _ _ _)

theorem settled_flowKey (e : EvData) (f : Bool) : KeepsSet (emitFlowMappingKey e f) := by
  unfold emitFlowMappingKey
  exact (KeepsSet.whenE (settled_openFlow _)).bind fun _ => KeepsSet.ite (settled_closeFlow _ _)
    ((KeepsSet.whenE (quiet_writeIndicator _ _ _ _).settled).bind fun _ => KeepsSet.getE.bind fun _ =>
      (KeepsSet.whenE quiet_writeIndent.settled).bind fun _ => KeepsSet.getE.bind fun _ => KeepsSet.getE.bind fun _ =>
      KeepsSet.ite (settled_push_node _ _ _ _ _ _) ((quiet_writeIndicator _ _ _ _).settled.bind fun _ =>
        settled_push_node _ _ _ _ _ _))

theorem settled_flowValue (e : EvData) (f : Bool) : KeepsSet (emitFlowMappingValue e f) := by
  unfold emitFlowMappingValue
  refine KeepsSet.bind ?_ fun _ => settled_push_node _ _ _ _ _ _
  exact KeepsSet.ite (quiet_writeIndicator _ _ _ _).settled
    (KeepsSet.getE.bind fun _ => (KeepsSet.whenE quiet_writeIndent.settled).bind fun _ => (quiet_writeIndicator _ _ _ _).settled)

theorem settled_blockSequence (e : EvData) (f : Bool) : KeepsSet (emitBlockSequenceItem e f) := by
  unfold emitBlockSequenceItem
  exact (KeepsSet.whenE (KeepsSet.getE.bind fun _ => KeepsSet.getE.bind fun _ => settled_increaseIndent _ _)).bind fun _ =>
    KeepsSet.ite (settled_popIndent.bind fun _ => settled_popStateE)
    (quiet_writeIndent.settled.bind fun _ => (quiet_writeIndicator _ _ _ _).settled.bind fun _ => settled_push_node _ _ _ _ _ _)

theorem settled_blockKey (e : EvData) (f : Bool) : KeepsSet (emitBlockMappingKey e f) := by
  unfold emitBlockMappingKey
  exact (KeepsSet.whenE (settled_increaseIndent _ _)).bind fun _ =>
    KeepsSet.ite (settled_popIndent.bind fun _ => settled_popStateE)
    (quiet_writeIndent.settled.bind fun _ => KeepsSet.getE.bind fun _ => KeepsSet.ite (settled_push_node _ _ _ _ _ _)
      ((quiet_writeIndicator _ _ _ _).settled.bind fun _ => settled_push_node _ _ _ _ _ _))

theorem settled_blockValue (e : EvData) (f : Bool) : KeepsSet (emitBlockMappingValue e f) := by
  unfold emitBlockMappingValue
  refine KeepsSet.bind ?_ fun _ => settled_push_node _ _ _ _ _ _
  exact KeepsSet.ite (quiet_writeIndicator _ _ _ _).settled
    (quiet_writeIndent.settled.bind fun _ => (quiet_writeIndicator _ _ _ _).settled)

theorem settled_appendTagDirective (d : TagDir) (b : Bool) : KeepsSet (appendTagDirective d b) := by
  unfold appendTagDirective
  exact KeepsSet.getE.bind fun _ => KeepsSet.ite (KeepsSet.ite (KeepsSet.pure _) (KeepsSet.failE _))
    ((KeepsSet.opE _).bind fun _ => KeepsSet.modE fun _ => rfl)

theorem settled_analyzeTagDirective (d : TagDir) : KeepsSet (analyzeTagDirective d) := by
  unfold analyzeTagDirective
  exact KeepsSet.ite (KeepsSet.failE _) (KeepsSet.ite (KeepsSet.failE _) (KeepsSet.ite (KeepsSet.failE _)
    (KeepsSet.ite (KeepsSet.failE _) (KeepsSet.ite (KeepsSet.failE _) (KeepsSet.pure _)))))

theorem settled_appendTags (ts : List TagDir) : KeepsSet (appendTags ts) := by
  induction ts with
  | nil => exact KeepsSet.pure _
  | cons d ts ih =>
    exact (settled_analyzeTagDirective d).bind fun _ => (settled_appendTagDirective d _).bind fun _ => ih

theorem settled_appendDefaults (ts : List TagDir) : KeepsSet (addDefaults ts) := by
  induction ts with
  | nil => exact KeepsSet.pure _
  | cons d ts ih => exact (settled_appendTagDirective d _).bind fun _ => ih

theorem settled_documentStart (e : EvData) (f : Bool) : KeepsSet (emitDocumentStart e f) := by
  unfold emitDocumentStart
  cases e with
  | documentStart v ts i =>
    show KeepsSet (emitDocumentStartEvent v ts i f)
    unfold emitDocumentStartEvent analyzeVersion setStateE
    exact (KeepsSet.someE fun _ => KeepsSet.ite (KeepsSet.failE _) (KeepsSet.pure _)).bind fun _ =>
      (settled_appendTags _).bind fun _ => (settled_appendDefaults _).bind fun _ => KeepsSet.getE.bind fun _ =>
      (KeepsSet.whenE ((quiet_writeIndicator _ _ _ _).bind fun _ => quiet_writeIndent).settled).bind fun _ =>
      KeepsSet.modBind (fun _ => rfl) fun _ => (KeepsSet.someE fun _ => (quiet_writeVersion _).settled).bind fun _ =>
      (quiet_writeTags _).settled.bind fun _ => KeepsSet.getE.bind fun _ =>
      (KeepsSet.whenE (quiet_writeIndent.settled.bind fun _ => (quiet_writeIndicator _ _ _ _).settled.bind fun _ =>
        KeepsSet.getE.bind fun _ => KeepsSet.whenE quiet_writeIndent.settled)).bind fun _ =>
      KeepsSet.modBind (fun _ => rfl) fun _ => KeepsSet.modE fun _ => rfl
  | streamEnd =>
    show KeepsSet emitStreamEndEvent
    unfold emitStreamEndEvent
    have hq : KeepsSet (do
        writeIndicator dots true false false
        modE fun s => { s with openEnded := 0 }
        writeIndent) :=
      (quiet_writeIndicator _ _ _ _).settled.bind fun _ => KeepsSet.modBind (fun _ => rfl) fun _ => quiet_writeIndent.settled
    refine KeepsSet.getE.bind fun _ => (KeepsSet.whenE hq).bind fun _ => (KeepsSet.opE _).bind fun _ => ?_
    unfold setStateE
    exact KeepsSet.modE fun _ => rfl
  | _ => exact KeepsSet.failE _

theorem settled_documentEnd (e : EvData) : KeepsSet (emitDocumentEnd e) := by
  cases e with
  | documentEnd i =>
    unfold emitDocumentEnd
    dsimp only
    refine quiet_writeIndent.settled.bind fun _ => KeepsSet.bind ?_ fun _ => (KeepsSet.opE _).bind fun _ => KeepsSet.modE fun _ => rfl
    exact KeepsSet.ite ((quiet_writeIndicator _ _ _ _).settled.bind fun _ => KeepsSet.modBind (fun _ => rfl) fun _ =>
      quiet_writeIndent.settled) (KeepsSet.modE fun _ => rfl)
  | _ => exact KeepsSet.failE _

/-- Only the start of the stream changes the settings. -/
theorem settled_stateMachine (e : EvData) {s : Emitter} (h : s.state ≠ .streamStart) :
    (emitterStep e s).st.settings = s.settings := by
  show (EM.bind getE _ s).st.settings = _
  unfold EM.bind getE
  dsimp only
  cases hst : s.state with
  | streamStart => exact absurd hst h
  | firstDocumentStart => exact settled_documentStart e true s
  | documentStart => exact settled_documentStart e false s
  | documentContent => exact settled_push_node _ _ _ _ _ _ s
  | documentEnd => exact settled_documentEnd e s
  | flowSequenceFirstItem => exact settled_flowSequence e true s
  | flowSequenceItem => exact settled_flowSequence e false s
  | flowMappingFirstKey => exact settled_flowKey e true s
  | flowMappingKey => exact settled_flowKey e false s
  | flowMappingSimpleValue => exact settled_flowValue e true s
  | flowMappingValue => exact settled_flowValue e false s
  | blockSequenceFirstItem => exact settled_blockSequence e true s
  | blockSequenceItem => exact settled_blockSequence e false s
  | blockMappingFirstKey => exact settled_blockKey e true s
  | blockMappingKey => exact settled_blockKey e false s
  | blockMappingSimpleValue => exact settled_blockValue e true s
  | blockMappingValue => exact settled_blockValue e false s
  | ended => exact KeepsSet.failE _ s

theorem settled_analyzeEvent (e : EvData) : KeepsSet (analyzeEvent e) := by
  intro s
  have := ewp_analyzeEvent e s
  unfold ewp at this
  have hl : Like s (analyzeEvent e s).st := by
    split at this
    · exact this.1
    · exact this.1
  unfold Emitter.settings
  rw [hl.encoding, hl.bestIndent, hl.bestWidth, hl.lineBreak]

/-- What the start of the stream does to the settings. -/
theorem settings_streamStart (e : EvData) (s : Emitter) :
    ((emitStreamStart e s).st.settings = s.settings ∧ (emitStreamStart e s).st.state = s.state) ∨
      ((∃ enc, e = .streamStart enc ∧ (emitStreamStart e s).st.settings = (s.normalize enc).settings)
        ∧ (emitStreamStart e s).st.state = .firstDocumentStart ∧ (emitStreamStart e s).val = .ok ()) := by
  cases e with
  | streamStart enc =>
    right
    have h : ewp (emitStreamStart (.streamStart enc)) (fun _ t => t.settings = (s.normalize enc).settings
        ∧ t.state = .firstDocumentStart) (fun _ _ => False) s := by
      unfold emitStreamStart
      rw [ewp_bind, ewp_modE]
      dsimp only
      rw [ewp_bind, ewp_modE, ewp_bind, ewp_getE, ewp_bind]
      refine (Quiet.whenE quiet_writeBom).ewp fun _ t ht => ?_
      unfold setStateE
      rw [ewp_modE]
      have := ht.like
      refine ⟨?_, rfl⟩
      show t.settings = _
      unfold Emitter.settings
      rw [this.encoding, this.bestIndent, this.bestWidth, this.lineBreak]
      rfl
    unfold ewp at h
    split at h
    · rename_i a heq; exact ⟨⟨enc, rfl, h.1⟩, h.2, heq⟩
    · exact h.elim
  | _ => exact Or.inl ⟨rfl, rfl⟩

/-- The settings are normal, or the stream has not begun. -/
def Normal (P : Settings → Prop) (s : Emitter) : Prop := s.state = .streamStart ∨ P s.settings

theorem normal_stateMachine {P : Settings → Prop} (hP : ∀ (s : Emitter) enc, P (s.normalize enc).settings) (e : EvData)
    {s : Emitter} (h : Normal P s) : Normal P (emitterStep e s).st := by
  by_cases hst : s.state = .streamStart
  · have hx : emitterStep e s = emitStreamStart e s := by
      unfold emitterStep
      show (EM.bind getE fun x => _) s = _
      unfold EM.bind getE
      dsimp only
      rw [hst]
      rfl
    rw [hx]
    rcases settings_streamStart e s with h1 | ⟨⟨enc, _, h1⟩, _⟩
    · exact Or.inl (h1.2.trans hst)
    · right; rw [h1]; exact hP _ _
  · rcases h with h | h
    · exact absurd h hst
    · right; rw [settled_stateMachine e hst]; exact h

/-- Preservation by a computation. -/
def Holds (P : Emitter → Prop) {α : Type} (m : EM α) : Prop := ∀ s, P s → P (m s).st

theorem Holds.bind {P : Emitter → Prop} {α β : Type} {m : EM α} {k : α → EM β} (hm : Holds P m) (hk : ∀ a, Holds P (k a)) :
    Holds P (m >>= k) := by
  intro s hs
  show P (EM.bind m k s).st
  unfold EM.bind
  cases h : (m s).val with
  | error e => exact hm s hs
  | ok a => exact hk a _ (hm s hs)

theorem normal_emitLoop {P : Settings → Prop} (hP : ∀ (s : Emitter) enc, P (s.normalize enc).settings) (n : Nat) :
    Holds (Normal P) (emitLoop n) := by
  induction n with
  | zero => intro s hs; exact hs
  | succ n ih =>
    unfold emitLoop
    refine Holds.bind (fun s hs => hs) fun s => ?_
    split
    · exact fun s hs => hs
    · split
      · exact fun s hs => hs
      · refine Holds.bind (fun s hs => ?_) fun _ => Holds.bind (fun s hs => normal_stateMachine hP _ hs) fun _ =>
          Holds.bind (fun s hs => hs) fun _ => ih
        rename_i e _ _
        have := ewp_analyzeEvent e s
        unfold ewp at this
        have hl : Like s (analyzeEvent e s).st := by
          split at this
          · exact this.1
          · exact this.1
        unfold Normal
        rw [settled_analyzeEvent, hl.state]
        exact hs

theorem normal_emit {P : Settings → Prop} (hP : ∀ (s : Emitter) enc, P (s.normalize enc).settings) (e : EvData) :
    Holds (Normal P) (emit e) := by
  unfold emit
  exact Holds.bind (fun s hs => hs) fun _ => Holds.bind (fun s hs => hs) fun _ => Holds.bind (fun s hs => hs) fun _ =>
    normal_emitLoop hP _

end LibYaml
