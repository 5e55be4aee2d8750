import Verif.Proofs.ScalarNode
import Verif.Spec.EmitParse

/-!
# Nodes without block collections

Aliases, scalars and flow collections: the text that is written, and the tokens it is read as.
-/

namespace LibYaml

open Spec

/-! ### Nesting -/

theorem level_cons (e : EvData) (es : List EvData) : level (e :: es) = level [e] + level es := by
  cases e <;> simp [level] <;> omega

theorem level_append (a b : List EvData) : level (a ++ b) = level a + level b := by
  induction a with
  | nil => simp [level]
  | cons e a ih => rw [List.cons_append, level_cons, ih, level_cons e a]; omega

theorem Spec.Deep.zero (es : List EvData) : Deep 0 es := ⟨[], List.nil_prefix, by simp [level]⟩

theorem Spec.Deep.left {h : Nat} {a : List EvData} (d : Deep h a) (b : List EvData) : Deep h (a ++ b) := by
  obtain ⟨p, h1, h2⟩ := d
  exact ⟨p, h1.trans (List.prefix_append _ _), h2⟩

theorem Spec.Deep.right {h : Nat} {a b : List EvData} (d : Deep h b) (ha : level a = 0) : Deep h (a ++ b) := by
  obtain ⟨p, h1, h2⟩ := d
  exact ⟨a ++ p, (List.prefix_append_right_inj a).mpr h1, by rw [level_append, ha]; omega⟩

theorem Spec.Deep.max {h1 h2 : Nat} {es : List EvData} (d1 : Deep h1 es) (d2 : Deep h2 es) : Deep (max h1 h2) es := by
  rcases Nat.le_total h1 h2 with h | h
  · rw [Nat.max_eq_right h]; exact d2
  · rw [Nat.max_eq_left h]; exact d1

theorem Spec.Deep.inside {h : Nat} {es : List EvData} (d : Deep h es) {e : EvData} (he : level [e] = 1) (fs : List EvData) : Deep (h + 1) (e :: es ++ fs) := by
  obtain ⟨p, h1, h2⟩ := d
  refine ⟨e :: p, ((List.prefix_cons_inj e).mpr h1).trans (List.prefix_append _ _), ?_⟩
  rw [level_cons, he]; omega

theorem level_zero {y : Sym} {w : List EvData} (h : G y w) : level w = 0 := by
  induction h with
  | «alias» => rfl
  | scalar => rfl
  | seq a t i s _ ih | map a t i s _ ih => rw [level_append, level_cons, ih]; rfl
  | nodesNil | pairsNil => rfl
  | nodesCons _ _ ih1 ih2 => rw [level_append, ih1, ih2]; rfl
  | pairsCons _ _ _ ih1 ih2 ih3 => rw [level_append, level_append, ih1, ih2, ih3]; rfl

/-! ### Tags -/

theorem TagRel.alike {t t' : Option Text} {p q : Bool} {st' : ScalarStyle} (h : TagRel t t' p q st') : ScalarTag t p q t' (plainOk t' st') (quotedOk t' st') := by
  rcases h with h | ⟨rfl, rfl, h⟩ | ⟨rfl, h1, h⟩ | ⟨rfl, h1, h⟩
  · exact .inl h
  · exact .inr (.inl ⟨rfl, .inl ⟨h, rfl⟩⟩)
  · refine .inr (.inl ⟨rfl, .inr ⟨h, ?_⟩⟩)
    unfold quotedOk
    simpa using h1
  · exact .inr (.inr ⟨rfl, h, by unfold plainOk; simp [lit]⟩)

theorem TagRel.alikeEmpty {t t' : Option Text} {p q : Bool} (h : TagRel t t' p q .plain) : ScalarTag t p q t' (untagged t') false := by
  rcases h with h | ⟨rfl, _, h⟩ | ⟨_, h, _⟩ | ⟨_, h, _⟩
  · exact .inl h
  · exact .inr (.inl ⟨rfl, .inl ⟨h, rfl⟩⟩)
  · exact absurd rfl h
  · exact absurd rfl h

theorem collTag_of {t : Option Text} {c i : Bool} : CollTag t i (if (c || !i) = true then t else none) (untagged (if (c || !i) = true then t else none)) := by
  cases t with
  | none =>
    refine .inr ⟨by simp, by simp [untagged], .inr rfl⟩
  | some x =>
    by_cases h : (c || !i) = true
    · rw [if_pos h]; exact .inl ⟨rfl, by simp⟩
    · rw [if_neg h]
      refine .inr ⟨rfl, rfl, .inl ?_⟩
      cases i with
      | true => rfl
      | false => simp at h

/-! ### Runs of events -/

/-- The tokens `tk` mean the events `evs`, which are like the events `w` that were emitted. -/
def Means (T : List TagDir) (n : Nt) (tk : List TokData) (w : List EvData) : Prop :=
  ∃ evs, Gram .implemented T n tk evs ∧ List.Forall₂ Alike w evs

/-- A node on its own: what is written, and the state behind it. -/
structure Inline1 (T : List TagDir) (lb : Break) (flow : Bool) (ind : Int) (w : List EvData) (b : Text) (h : Nat) (tk : List TokData) : Prop where
  scan : NodeScan flow ind lb h b tk
  deep : Deep h w
  means : ∀ bl i, Means T (.node bl i) tk w

/-- The state behind a node. -/
structure Behind (c : Core) (s' : Emitter) : Prop where
  core : s'.core = c
  ws : s'.whitespace = false
  ind : s'.indention = false

/-- Without block collections. -/
def InlineOut (T : List TagDir) (lb : Break) (flow : Bool) (ind : Int) (w : List EvData) (c : Core) (s : Emitter) (t : Text) (s' : Emitter) : Prop :=
  ∃ b h tk, t = lead s ++ b ∧ Inline1 T lb flow ind w b h tk ∧ Behind c s'

/-- A simple key. -/
def KeyOut (T : List TagDir) (lb : Break) (flow : Bool) (ind : Int) (w : List EvData) (c : Core) (s : Emitter) (t : Text) (s' : Emitter) : Prop :=
  ∃ b h tk al kk, t = lead s ++ (b ++ gap lb false kk) ∧ LeafScan flow ind lb h al (Fol flow) b tk ∧ NoBreaks b ∧ b.length + kk ≤ 1024 ∧ Deep h w ∧
    (∀ bl i, Means T (.node bl i) tk w) ∧ Behind c s'

/-- The core behind a node. -/
def Core.pop (c : Core) (x : EState) (xs : List EState) : Core := { c with state := x, states := xs }

/-- The events can be emitted in this context. -/
def Fits (T : List TagDir) (c : Bool) (w : List EvData) : Prop := ∀ e ∈ w, GoodEvent c e ∧ EventFit T e

/-! ### What an event leaves alone -/

/-- What the analysis of an event notes is still there. -/
def Emitter.notes (s : Emitter) := (s.anchor, s.anchorIsAlias, s.tagHandle, s.tagSuffix, s.scalar, s.canonical, s.unicode)

theorem Noted.congr {T : List TagDir} {s s' : Emitter} {e : EvData} (h : Noted T s e) (hs : s'.notes = s.notes) : Noted T s' e := by
  unfold Emitter.notes at hs
  simp only [Prod.mk.injEq] at hs
  obtain ⟨h1, h2, h3, h4, h5, h6, h7⟩ := hs
  have hp : ∀ {a t}, PropNote T s a t → PropNote T s' a t := by
    rintro a t ⟨k1, k2, k3, k4⟩
    exact ⟨h1.trans k1, k2, fun x hx => h2.trans (k3 x hx), by rw [h3, h4]; exact k4⟩
  cases e with
  | «alias» a => exact ⟨h1.trans h.1, h2.trans h.2⟩
  | scalar a t v p q st =>
    obtain ⟨k1, st', k2⟩ := h
    refine ⟨?_, st', ?_⟩
    · rw [h6]; exact hp k1
    · rw [h5, h7]; exact k2
  | sequenceStart a t i st =>
    show PropNote T s' a _
    rw [h6]
    exact hp h
  | mappingStart a t i st =>
    show PropNote T s' a _
    rw [h6]
    exact hp h
  | _ => trivial

theorem Kin.notes {s s' : Emitter} (h : Kin s s') : s'.notes = s.notes := by
  unfold Kin at h
  rw [h]; rfl

theorem Kin.events {s s' : Emitter} (h : Kin s s') : s'.events = s.events := by
  unfold Kin at h
  rw [h]

theorem Ctx.pop {T : List TagDir} {lb : Break} {c : Core} (h : Ctx T lb c) (x : EState) (xs : List EState) : Ctx T lb (c.pop x xs) :=
  ⟨h.line, h.best, h.tags, h.good, h.once, h.low, h.level, h.inFlow⟩

/-- The same position and the same state, whatever the event is. -/
structure Near (s s1 : Emitter) : Prop where
  core : s1.core = s.core
  ws : s1.whitespace = s.whitespace
  ind : s1.indention = s.indention
  col : s1.column = s.column
  map : s1.mappingContext = s.mappingContext
  ended : s1.openEnded = s.openEnded

theorem Near.lead {s s1 : Emitter} (h : Near s s1) : LibYaml.lead s1 = LibYaml.lead s := by
  unfold LibYaml.lead
  rw [h.ws]

theorem Near.canonical {s s1 : Emitter} (h : Near s s1) : s1.canonical = s.canonical := congrArg Core.canonical h.core
theorem Near.indent {s s1 : Emitter} (h : Near s s1) : s1.indent = s.indent := congrArg Core.indent h.core
theorem Near.flowLevel {s s1 : Emitter} (h : Near s s1) : s1.flowLevel = s.flowLevel := congrArg Core.flowLevel h.core
theorem Near.state {s s1 : Emitter} (h : Near s s1) : s1.state = s.state := congrArg Core.state h.core
theorem Near.states {s s1 : Emitter} (h : Near s s1) : s1.states = s.states := congrArg Core.states h.core
theorem Near.indents {s s1 : Emitter} (h : Near s s1) : s1.indents = s.indents := congrArg Core.indents h.core
theorem Near.deeper {s s1 : Emitter} (h : Near s s1) {f i : Bool} : s1.deeper f i = s.deeper f i := by
  unfold Emitter.deeper
  rw [h.indent, show s1.bestIndent = s.bestIndent from congrArg Core.bestIndent h.core]

/-- One event: the analysis comes first. -/
theorem Writes.event {T : List TagDir} {lb : Break} {e : EvData} {es : List EvData} {R : Text → Emitter → Prop} {s : Emitter} (hne : opensNode e = true → es ≠ [])
    (hc : Ctx T lb s.core) (hg : GoodEvent s.canonical e) (hf : EventFit T e)
    (h : ∀ s1, Near s s1 → Noted T s1 e → Peek e es s1.events → WritesFrom (emitterStep e) es R s1) : Writes (e :: es) R s := by
  refine Writes.step hne fun q hq => ?_
  refine tw_analyzeEvent (s := { s with events := q }) (T := T) (lb := lb) hc hg hf fun A B H X S hn => ?_
  exact (h { s with events := q, anchor := A, anchorIsAlias := B, tagHandle := H, tagSuffix := X, scalar := S } ⟨rfl, rfl, rfl, rfl, rfl, rfl⟩ hn hq).mono fun t s' h' => by simpa using h'

/-! ### Leaves -/

theorem tw_emitAlias {lb : Break} {flow : Bool} {ind : Int} {a : Text} {s : Emitter} {x : EState} {xs : List EState} (hg : Name a)
    (h1 : s.anchor = some a) (h2 : s.anchorIsAlias = true) (hx : s.states = x :: xs) :
    tw emitAlias (fun _ t s' => ∃ b, t = lead s ++ (b ++ (if s.simpleKeyContext = true then [32] else [])) ∧ b.length ≤ 1 + strLen a ∧ NoBreaks b ∧
      LeafScan flow ind lb 0 (fun br => br && !flow) (Fol flow) b [.alias a] ∧ Behind (s.core.pop x xs) s') s := by
  have ha : ∀ c ∈ a, isAlpha c = true := fun c hc => (isAlpha_iff c).mpr (hg.2 c hc)
  have hnb : NoBreaks (42 :: a) := by
    intro c hc
    rcases List.mem_cons.mp hc with rfl | hc
    · decide
    · exact noBreaks_alpha (ha c hc)
  have hlen : (42 :: a : Text).length ≤ 1 + strLen a := by
    have := length_le_strLen a
    simp only [List.length_cons]; omega
  unfold emitAlias
  rw [tw_bind, tw_processAnchor h1, h2, if_pos rfl, tw_bind, tw_getE, tw_bind, tw_whenE]
  have hs := leaf_alias (flow := flow) (ind := ind) (lb := lb) ha hg.1
  cases hk : s.simpleKeyContext with
  | false =>
    rw [if_neg (by simp), tw_popState (x := x) (xs := xs) (by exact hx)]
    exact ⟨42 :: a, by simp, hlen, hnb, hs, rfl, rfl, rfl⟩
  | true =>
    rw [if_pos rfl, tw_putC, tw_popState (x := x) (xs := xs) (by exact hx)]
    exact ⟨42 :: a, by simp, hlen, hnb, hs, rfl, rfl, rfl⟩


/-! ### Nodes in flow collections -/

/-- The event begins a node. -/
def startsNode : EvData → Prop
  | .alias _ | .scalar .. | .sequenceStart .. | .mappingStart .. => True
  | _ => False

/-- Leaves are written at once. -/
theorem Writes.done {m : EM Unit} {R : Text → Emitter → Prop} {s : Emitter} (h : tw m (fun _ t s' => R t s') s) : WritesFrom m [] R s :=
  tw_mono h fun _ _ _ h' => .nil (by simpa using h')

theorem forall2_one {α β : Type} {R : α → β → Prop} {a : α} {b : β} (h : R a b) : List.Forall₂ R [a] [b] := .cons h .nil

theorem inline_alias {T : List TagDir} {lb : Break} {flow : Bool} {ind : Int} {a : Text} {s : Emitter} {x : EState} {xs : List EState} {root sq mp : Bool}
    {R : Text → Emitter → Prop} (hg : Name a) (hn : Noted T s (.alias a)) (hx : s.states = x :: xs)
    (hR : ∀ t s', InlineOut T lb flow ind [.alias a] (s.core.pop x xs) s t s' → R t s') : WritesFrom (emitNode (.alias a) root sq mp false) [] R s := by
  refine Writes.done ?_
  unfold emitNode
  rw [tw_bind, tw_modE]
  refine tw_mono (tw_emitAlias (lb := lb) (flow := flow) (ind := ind) (x := x) (xs := xs) hg (by exact hn.1) (by exact hn.2) (by exact hx)) fun _ t s' h => ?_
  obtain ⟨b, h1, _, _, h2, h3⟩ := h
  refine hR _ _ ⟨b, 0, _, ?_, ⟨h2.node (fun h => by rw [h]; rfl), .zero _, fun bl i => ⟨_, .alias a, forall2_one (.alias a)⟩⟩, h3⟩
  simpa [lead] using h1

theorem inline_scalar {T : List TagDir} {lb : Break} {flow : Bool} {ind : Int} {a t : Option Text} {v : Text} {p q : Bool} {b : Text} {tk : List TokData} {al : Bool → Bool} {st : ScalarStyle}
    {st' : ScalarStyle} {t' : Option Text} (h2 : LeafScan flow ind lb 0 al (Fol flow) b (tk ++ [.scalar v st'])) (h3 : flow = false → al true = true) (h4 : Properties T tk a t')
    (h5 : TagRel t t' p q st') : Inline1 T lb flow ind [.scalar a t v p q st] b 0 (tk ++ [.scalar v st']) :=
  ⟨h2.node h3, .zero _, fun _ _ => ⟨_, .scalar v st' h4, forall2_one (.scalar _ _ _ _ h5.alike)⟩⟩

/-- A node inside a flow collection. -/
def NodeF (w : List EvData) : Prop :=
  ∃ e es, w = e :: es ∧ startsNode e ∧ ∀ {T : List TagDir} {lb : Break} {ind : Int} {s : Emitter} {x : EState} {xs : List EState} {root sq mp : Bool} {R : Text → Emitter → Prop},
    Ctx T lb s.core → s.flowLevel ≠ 0 → ind ≤ s.deeper true false → Noted T s e → Peek e es s.events → s.states = x :: xs → Fits T s.canonical w →
    (∀ t s', InlineOut T lb true ind w (s.core.pop x xs) s t s' → R t s') → WritesFrom (emitNode e root sq mp false) es R s

theorem nodeF_alias (a : Text) : NodeF [.alias a] :=
  ⟨_, _, rfl, trivial, fun _ _ _ hn _ hx hf hR => inline_alias (hf _ List.mem_cons_self).1 hn hx hR⟩

theorem nodeF_scalar (a t : Option Text) (v : Text) (p q : Bool) (st : ScalarStyle) : NodeF [.scalar a t v p q st] := by
  refine ⟨_, _, rfl, trivial, fun {T lb ind s x xs root sq mp R} hc hfl hi hn _ hx hf hR => Writes.done ?_⟩
  obtain ⟨hg, hf⟩ := hf _ List.mem_cons_self
  unfold emitNode
  rw [tw_bind, tw_modE]
  refine tw_emitScalar (T := T) (lb := lb) (flow := true) (ind := ind) (x := x) (xs := xs) (a := a) (t := t) (v := v) (by exact hc) (by exact (decide_eq_true hfl).symm) (by exact hi) (by exact hg) hf
    (by exact hn.congr rfl) (by exact hx) fun y s' ho hcore => hR _ _ ?_
  cases ho with
  | ink h1 h2 h3 h4 h5 h6 h7 h8 => exact ⟨_, 0, _, by simpa [lead] using h1, inline_scalar h2 h3 h4 h5, hcore, h7, h8⟩
  | none h => cases h
  | empty h => cases h
  | block h => cases h

end LibYaml
