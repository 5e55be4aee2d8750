import Verif.Proofs.Emitter
import Verif.Proofs.Grammar
import Verif.Spec.EmitEvents

/-! The state machine of the emitter follows the automaton of the event grammar. -/

namespace LibYaml

open Spec

/-- The fields that matter for the structure, apart from the states. -/
structure Same (s t : Emitter) : Prop where
  events : t.events = s.events
  indents : t.indents = s.indents
  tags : t.tags = s.tags
  indent : t.indent = s.indent
  flowLevel : t.flowLevel = s.flowLevel
  canonical : t.canonical = s.canonical
  encoding : t.encoding = s.encoding
  bestIndent : t.bestIndent = s.bestIndent
  bestWidth : t.bestWidth = s.bestWidth
  unicode : t.unicode = s.unicode
  lineBreak : t.lineBreak = s.lineBreak

/-- The states, too. -/
structure Like (s t : Emitter) : Prop extends Same s t where
  state : t.state = s.state
  states : t.states = s.states

theorem Same.refl (s : Emitter) : Same s s := ⟨rfl, rfl, rfl, rfl, rfl, rfl, rfl, rfl, rfl, rfl, rfl⟩
theorem Same.trans {s t u : Emitter} (h : Same s t) (k : Same t u) : Same s u :=
  ⟨k.1.trans h.1, k.2.trans h.2, k.3.trans h.3, k.4.trans h.4, k.5.trans h.5, k.6.trans h.6, k.7.trans h.7,
   k.8.trans h.8, k.9.trans h.9, k.10.trans h.10, k.11.trans h.11⟩
theorem Like.refl (s : Emitter) : Like s s := ⟨Same.refl s, rfl, rfl⟩
theorem Like.trans {s t u : Emitter} (h : Like s t) (k : Like t u) : Like s u :=
  ⟨h.toSame.trans k.toSame, k.state.trans h.state, k.states.trans h.states⟩

theorem Kin.like {s t : Emitter} (h : Kin s t) : Like s t := by
  unfold Kin at h
  rw [h]
  exact ⟨⟨rfl, rfl, rfl, rfl, rfl, rfl, rfl, rfl, rfl, rfl, rfl⟩, rfl, rfl⟩

theorem Kin.anchor {s t : Emitter} (h : Kin s t) : t.anchor = s.anchor := by unfold Kin at h; rw [h]
theorem Kin.tagHandle {s t : Emitter} (h : Kin s t) : t.tagHandle = s.tagHandle := by unfold Kin at h; rw [h]
theorem Kin.tagSuffix {s t : Emitter} (h : Kin s t) : t.tagSuffix = s.tagSuffix := by unfold Kin at h; rw [h]
theorem Kin.scalar {s t : Emitter} (h : Kin s t) : t.scalar = s.scalar := by unfold Kin at h; rw [h]
theorem Kin.simpleKeyContext {s t : Emitter} (h : Kin s t) : t.simpleKeyContext = s.simpleKeyContext := by
  unfold Kin at h; rw [h]

/-- Frame of a state inside a document. -/
def frameOf : EState → Option Frame
  | .documentContent => some .docNode
  | .documentEnd => some .docEnd
  | .flowSequenceFirstItem | .flowSequenceItem | .blockSequenceFirstItem | .blockSequenceItem => some .seq
  | .flowMappingFirstKey | .flowMappingKey | .blockMappingFirstKey | .blockMappingKey => some .mapKey
  | .flowMappingSimpleValue | .flowMappingValue | .blockMappingSimpleValue | .blockMappingValue => some .mapVal
  | _ => none

/-- States inside a collection that has begun. -/
def opened : EState → Nat
  | .flowSequenceItem | .blockSequenceItem | .flowMappingKey | .blockMappingKey
  | .flowMappingSimpleValue | .flowMappingValue | .blockMappingSimpleValue | .blockMappingValue => 1
  | _ => 0

/-- States inside a flow collection that has begun. -/
def inFlow : EState → Nat
  | .flowSequenceItem | .flowMappingKey | .flowMappingSimpleValue | .flowMappingValue => 1
  | _ => 0

/-- States that are pushed. -/
def resting : EState → Prop
  | .documentEnd => True
  | x => opened x = 1

/-- The stacks fit together. -/
structure Stacks (s : Emitter) : Prop where
  indents : s.indents.length = ((s.state :: s.states).map opened).sum
  flow : s.flowLevel = (((s.state :: s.states).map inFlow).sum : Nat)
  resting : ∀ x ∈ s.states, resting x

/-- The configuration of the automaton for an emitter. -/
inductive Inv : Emitter → Cfg → Prop
  | start {s} : Stacks s → s.state = .streamStart → s.states = [] → s.tags = [] → Inv s .start
  | docs {s} : Stacks s → s.state = .firstDocumentStart ∨ s.state = .documentStart → s.states = [] → s.tags = [] →
      Inv s .docs
  | doc {s fs} : Stacks s → (s.state :: s.states).map frameOf = fs.map some → Inv s (.doc fs)
  | ended {s} : Stacks s → s.state = .ended → s.states = [] → Inv s .ended

theorem isAlpha_iff (c : Nat) : isAlpha c = true ↔ Word c := by
  simp only [isAlpha, Word, Bool.or_eq_true, Bool.and_eq_true, decide_eq_true_eq, beq_iff_eq]
  omega

/-! ### Analysis -/

/-- The anchor and the tag of an event are acceptable. -/
def GoodProps (canonical : Bool) : EvData → Prop
  | .alias a => Name a
  | .scalar a t _ p q _ => (∀ x, a = some x → Name x) ∧ (canonical = true ∨ (p = false ∧ q = false) → t ≠ some [])
  | .sequenceStart a t i _ => (∀ x, a = some x → Name x) ∧ (canonical = true ∨ i = false → t ≠ some [])
  | .mappingStart a t i _ => (∀ x, a = some x → Name x) ∧ (canonical = true ∨ i = false → t ≠ some [])
  | _ => True

/-- What the analysis of a scalar says about its tag. -/
def TagNoted (s : Emitter) : EvData → Prop
  | .scalar _ t _ p q _ =>
    (s.tagHandle = none ∧ s.tagSuffix = none) ↔ (t = none ∨ ¬ (s.canonical = true ∨ (p = false ∧ q = false)))
  | _ => True

theorem ewp_analyzeAnchor {Q : Unit → Emitter → Prop} {E : EFail → Emitter → Prop} {s : Emitter} {a : Text} {b : Bool}
    (hQ : Name a → Q () { s with anchor := some a, anchorIsAlias := b })
    (hE : ∀ p, ¬ Name a → E (.emitter p) s) : ewp (analyzeAnchor a b) Q E s := by
  unfold analyzeAnchor
  rw [ewp_ite]
  split
  · rename_i h
    rw [ewp_failE]
    exact hE _ (fun hn => hn.1 (List.isEmpty_iff.mp h))
  · rename_i h
    rw [ewp_ite]
    split
    · rename_i h2
      rw [ewp_failE]
      refine hE _ fun hn => ?_
      have : a.all isAlpha = true := by
        rw [List.all_eq_true]
        exact fun c hc => (isAlpha_iff c).mpr (hn.2 c hc)
      rw [this] at h2
      cases h2
    · rename_i h2
      rw [ewp_modE]
      have h3 : a.all isAlpha = true := by
        cases hq : a.all isAlpha with
        | true => rfl
        | false => rw [hq] at h2; exact absurd rfl h2
      refine hQ ⟨fun hn => h (by rw [hn]; rfl), fun c hc => (isAlpha_iff c).mp ?_⟩
      rw [List.all_eq_true] at h3
      exact h3 c hc

theorem ewp_analyzeTag {Q : Unit → Emitter → Prop} {E : EFail → Emitter → Prop} {s : Emitter} {t : Text}
    (hQ : ∀ u h x, t ≠ [] → u = { s with tagHandle := h, tagSuffix := some x } → Q () u)
    (hE : ∀ p, t = [] → E (.emitter p) s) : ewp (analyzeTag t) Q E s := by
  unfold analyzeTag
  rw [ewp_ite]
  split
  · rename_i h
    rw [ewp_failE]
    exact hE _ (List.isEmpty_iff.mp h)
  · rename_i h
    have ht : t ≠ [] := fun hn => h (by rw [hn]; rfl)
    rw [ewp_bind, ewp_getE]
    cases hf : s.tags.find? fun d => d.fits t with
    | none => exact hQ _ _ _ ht rfl
    | some d => exact hQ _ _ _ ht rfl

theorem ewp_someE {α : Type} {Q : Unit → Emitter → Prop} {E : EFail → Emitter → Prop} {s : Emitter} {x : Option α}
    {f : α → EM Unit} (hn : x = none → Q () s) (hs : ∀ a, x = some a → ewp (f a) Q E s) : ewp (someE x f) Q E s := by
  unfold someE
  cases x with
  | none => exact hn rfl
  | some a => exact hs a rfl

/-- Anchor and tag of a node. -/
theorem ewp_analyzeProps {Q : Unit → Emitter → Prop} {E : EFail → Emitter → Prop} {s : Emitter} {a t : Option Text}
    {b : Bool} (h0 : s.tagHandle = none) (h1 : s.tagSuffix = none)
    (hQ : ∀ u, Like s u → (∀ x, a = some x → Name x) → (b = true → t ≠ some []) →
      ((u.tagHandle = none ∧ u.tagSuffix = none) ↔ (t = none ∨ b = false)) → Q () u)
    (hE : ∀ p u, Like s u → ¬ ((∀ x, a = some x → Name x) ∧ (b = true → t ≠ some [])) → E (.emitter p) u) :
    ewp (analyzeProps a t b) Q E s := by
  have step : ∀ u, Like s u → u.tagHandle = none → u.tagSuffix = none →
      (∀ x, a = some x → Name x) → ewp (whenE b (someE t analyzeTag)) Q E u := by
    intro u hu g0 g1 ha
    rw [ewp_whenE]
    split
    · rename_i hb
      refine ewp_someE (fun ht => ?_) (fun x hx => ?_)
      · refine hQ u hu ha (fun _ => by rw [ht]; exact fun h => nomatch h) ?_
        exact ⟨fun _ => Or.inl ht, fun _ => ⟨g0, g1⟩⟩
      · refine ewp_analyzeTag (fun w h y hne hw => ?_) (fun p hp => ?_)
        · refine hQ w (hu.trans (by rw [hw]; exact ⟨⟨rfl, rfl, rfl, rfl, rfl, rfl, rfl, rfl, rfl, rfl, rfl⟩, rfl, rfl⟩))
            ha (fun _ => by rw [hx]; exact fun h => hne (Option.some.inj h)) ?_
          constructor
          · rintro ⟨_, h2⟩
            rw [hw] at h2
            cases h2
          · rintro (h2 | h2)
            · rw [hx] at h2; cases h2
            · rw [hb] at h2; cases h2
        · refine hE p u hu (fun h => h.2 hb ?_)
          rw [hx, hp]
    · rename_i hb
      have hb' : b = false := by cases b with
        | true => exact absurd rfl hb
        | false => rfl
      exact hQ u hu ha (fun h => absurd h hb) ⟨fun _ => Or.inr hb', fun _ => ⟨g0, g1⟩⟩
  unfold analyzeProps
  rw [ewp_bind]
  refine ewp_someE (fun hn => ?_) (fun x hx => ?_)
  · exact step s (Like.refl s) h0 h1 (fun x hx => by rw [hn] at hx; cases hx)
  · refine ewp_analyzeAnchor (fun hx2 => ?_) (fun p hp => ?_)
    · refine step _ ⟨⟨rfl, rfl, rfl, rfl, rfl, rfl, rfl, rfl, rfl, rfl, rfl⟩, rfl, rfl⟩ h0 h1 (fun y hy => ?_)
      rw [hx] at hy
      injection hy with hy
      rw [← hy]
      exact hx2
    · exact hE p s (Like.refl s) (fun h => hp (h.1 x hx))

theorem bool_cond (c p q : Bool) : (c || (!p && !q)) = true ↔ (c = true ∨ (p = false ∧ q = false)) := by
  cases c <;> cases p <;> cases q <;> simp

theorem bool_cond' (c i : Bool) : (c || !i) = true ↔ (c = true ∨ i = false) := by
  cases c <;> cases i <;> simp

/-- The analysis succeeds exactly on events with good anchor and tag. -/
theorem ewp_analyzeEvent (e : EvData) (s : Emitter) :
    ewp (analyzeEvent e) (fun _ t => Like s t ∧ GoodProps s.canonical e ∧ TagNoted t e)
      (fun err t => Like s t ∧ ∃ p, err = .emitter p ∧ ¬ GoodProps s.canonical e) s := by
  unfold analyzeEvent
  rw [ewp_bind, ewp_modE, ewp_bind, ewp_getE]
  generalize hs0 : ({ s with anchor := none, tagHandle := none, tagSuffix := none, scalar := { s.scalar with value := [] } } : Emitter) = s0
  have hl : Like s s0 := by
    rw [← hs0]; exact ⟨⟨rfl, rfl, rfl, rfl, rfl, rfl, rfl, rfl, rfl, rfl, rfl⟩, rfl, rfl⟩
  have h0 : s0.tagHandle = none := by rw [← hs0]
  have h1 : s0.tagSuffix = none := by rw [← hs0]
  have hc : s0.canonical = s.canonical := hl.canonical
  rw [hc]
  have triv : ∀ e, GoodProps s.canonical e → TagNoted s0 e →
      ewp (pure ()) (fun _ t => Like s t ∧ GoodProps s.canonical e ∧ TagNoted t e)
      (fun err t => Like s t ∧ ∃ p, err = .emitter p ∧ ¬ GoodProps s.canonical e) s0 :=
    fun e hg ht => ⟨hl, hg, ht⟩
  cases e with
  | streamStart enc => exact triv _ trivial trivial
  | streamEnd => exact triv _ trivial trivial
  | documentStart v ts i => exact triv _ trivial trivial
  | documentEnd i => exact triv _ trivial trivial
  | sequenceEnd => exact triv _ trivial trivial
  | mappingEnd => exact triv _ trivial trivial
  | «alias» a =>
    refine ewp_analyzeAnchor (fun hn => ⟨hl.trans ?_, hn, trivial⟩) (fun p hn => ⟨hl, p, rfl, hn⟩)
    exact ⟨⟨rfl, rfl, rfl, rfl, rfl, rfl, rfl, rfl, rfl, rfl, rfl⟩, rfl, rfl⟩
  | scalar a t v p q st =>
    show ewp (analyzeProps a t (s.canonical || (!p && !q)) >>= fun _ => analyzeScalar v) _ _ s0
    rw [ewp_bind]
    refine ewp_analyzeProps h0 h1 (fun u hu ha ht hn => ?_) (fun pr u hu hn => ⟨hl.trans hu, pr, rfl, fun h => hn ⟨h.1, ?_⟩⟩)
    · unfold analyzeScalar
      rw [ewp_modE]
      refine ⟨hl.trans (hu.trans ⟨⟨rfl, rfl, rfl, rfl, rfl, rfl, rfl, rfl, rfl, rfl, rfl⟩, rfl, rfl⟩),
        ⟨ha, fun h => ht ((bool_cond _ _ _).mpr h)⟩, ?_⟩
      show (u.tagHandle = none ∧ u.tagSuffix = none) ↔ _
      rw [hn]
      show _ ↔ (t = none ∨ ¬ (u.canonical = true ∨ _))
      rw [hu.canonical, hc, ← bool_cond, Bool.not_eq_true]
    · exact fun hb => h.2 ((bool_cond _ _ _).mp hb)
  | sequenceStart a t i st =>
    exact ewp_analyzeProps h0 h1
      (fun u hu ha ht hn => ⟨hl.trans hu, ⟨ha, fun h => ht ((bool_cond' _ _).mpr h)⟩, trivial⟩)
      (fun pr u hu hn => ⟨hl.trans hu, pr, rfl, fun h => hn ⟨h.1, fun hb => h.2 ((bool_cond' _ _).mp hb)⟩⟩)
  | mappingStart a t i st =>
    exact ewp_analyzeProps h0 h1
      (fun u hu ha ht hn => ⟨hl.trans hu, ⟨ha, fun h => ht ((bool_cond' _ _).mpr h)⟩, trivial⟩)
      (fun pr u hu hn => ⟨hl.trans hu, pr, rfl, fun h => hn ⟨h.1, fun hb => h.2 ((bool_cond' _ _).mp hb)⟩⟩)

/-! ### Nodes -/

/-- What a failed call leaves unchanged. -/
structure Fixed (s t : Emitter) : Prop where
  events : t.events = s.events
  canonical : t.canonical = s.canonical
  state : t.state = s.state

theorem Like.fixed {s t : Emitter} (h : Like s t) : Fixed s t := ⟨h.events, h.canonical, h.state⟩

/-- The events that begin a node. -/
def isNode : EvData → Prop
  | .alias _ | .scalar .. | .sequenceStart .. | .mappingStart .. => True
  | _ => False

/-- The state stack when a node is about to be emitted. -/
structure NodeReady (s : Emitter) (fs : List Frame) : Prop where
  indents : s.indents.length = (s.states.map opened).sum
  flow : s.flowLevel = ((s.states.map inFlow).sum : Nat)
  resting : ∀ x ∈ s.states, resting x
  frames : s.states.map frameOf = fs.map some

theorem resting_cases {x : EState} (h : resting x) : x = .documentEnd ∨ opened x = 1 := by
  cases x <;> simp [resting, opened] at h ⊢

theorem NodeReady.like {s t : Emitter} {fs : List Frame} (h : NodeReady s fs) (k : Like s t) : NodeReady t fs :=
  ⟨by rw [k.indents, k.states]; exact h.indents, by rw [k.flowLevel, k.states]; exact h.flow,
   by rw [k.states]; exact h.resting, by rw [k.states]; exact h.frames⟩

/-- After a leaf the pushed state is the current one. -/
theorem NodeReady.pop {s : Emitter} {x : EState} {K : List EState} {fs : List Frame} (h : NodeReady s fs)
    (hs : s.states = x :: K) : Inv { s with state := x, states := K } (.doc fs) := by
  refine .doc ⟨?_, ?_, ?_⟩ ?_
  · show s.indents.length = _; rw [h.indents, hs]
  · show s.flowLevel = _; rw [h.flow, hs]
  · intro y hy
    exact h.resting y (by rw [hs]; exact List.mem_cons_of_mem _ hy)
  · show (x :: K).map frameOf = _; rw [← hs]; exact h.frames

theorem NodeReady.open_ {s : Emitter} {x : EState} {f : Frame} {fs : List Frame} (h : NodeReady s fs)
    (h1 : opened x = 0) (h2 : inFlow x = 0) (h3 : frameOf x = some f) : Inv { s with state := x } (.doc (f :: fs)) := by
  refine .doc ⟨?_, ?_, ?_⟩ ?_
  · show s.indents.length = ((x :: s.states).map opened).sum
    rw [List.map_cons, List.sum_cons, h1, Nat.zero_add]; exact h.indents
  · show s.flowLevel = (((x :: s.states).map inFlow).sum : Nat)
    rw [List.map_cons, List.sum_cons, h2, Nat.zero_add]; exact h.flow
  · exact h.resting
  · show (x :: s.states).map frameOf = (f :: fs).map some
    rw [List.map_cons, List.map_cons, h3, h.frames]

theorem ewp_popStateE {Q : Unit → Emitter → Prop} {E : EFail → Emitter → Prop} {s : Emitter} {x : EState}
    {K : List EState} (hs : s.states = x :: K) (h : Q () { s with state := x, states := K }) : ewp popStateE Q E s := by
  unfold ewp popStateE; rw [hs]; exact h

theorem ewp_popIndent {Q : Unit → Emitter → Prop} {E : EFail → Emitter → Prop} {s : Emitter} {x : Int}
    {K : List Int} (hs : s.indents = x :: K) (h : Q () { s with indent := x, indents := K }) : ewp popIndent Q E s := by
  unfold ewp popIndent; rw [hs]; exact h

theorem ewp_increaseIndent {Q : Unit → Emitter → Prop} {E : EFail → Emitter → Prop} {s : Emitter} {a b : Bool}
    (h : Q () { s with indents := s.indent :: s.indents, indent := s.deeper a b }) : ewp (increaseIndent a b) Q E s := by
  unfold increaseIndent
  rw [ewp_bind, ewp_opE, ewp_modE]
  exact h

theorem ewp_pushState {Q : Unit → Emitter → Prop} {E : EFail → Emitter → Prop} {s : Emitter} {x : EState}
    (h : Q () { s with states := x :: s.states }) : ewp (pushStateE x) Q E s := by
  unfold pushStateE
  rw [ewp_bind, ewp_opE, ewp_modE]
  exact h

theorem plainRules_ne_any (s : Emitter) (a b : Bool) (st : ScalarStyle) : s.plainRules a b st ≠ .any := by
  have key : ∀ (c : Prop) [Decidable c] (x y : ScalarStyle), x ≠ .any → y ≠ .any → (if c then x else y) ≠ .any := by
    intro c _ x y hx hy
    split <;> assumption
  unfold Emitter.plainRules
  dsimp only
  refine key _ _ _ (by simp) (key _ _ _ (by simp) (key _ _ _ (by simp) ?_))
  by_cases h : st = .any
  · rw [if_pos h]; simp
  · rw [if_neg h]; exact h

theorem quotedRules_ne_any (s : Emitter) (st : ScalarStyle) (h : st ≠ .any) : s.quotedRules st ≠ .any := by
  unfold Emitter.quotedRules
  dsimp only
  split
  · simp
  · split
    · simp
    · exact h

/-- Style selection. -/
theorem ewp_select {Q : Unit → Emitter → Prop} {E : EFail → Emitter → Prop} {s : Emitter} {p q : Bool} {st : ScalarStyle}
    (hQ : ∀ u, Like s u → u.scalar.style ≠ .any →
      ¬ (s.tagHandle = none ∧ s.tagSuffix = none ∧ p = false ∧ q = false) → Q () u)
    (hE : ∀ pr, s.tagHandle = none ∧ s.tagSuffix = none ∧ p = false ∧ q = false → E (.emitter pr) s) :
    ewp (selectScalarStyle p q st) Q E s := by
  unfold selectScalarStyle
  rw [ewp_bind, ewp_getE]
  dsimp only
  rw [ewp_ite]
  split
  · rename_i h
    rw [ewp_failE]
    apply hE
    simpa [Bool.and_eq_true, and_assoc] using h
  · rename_i h
    rw [ewp_modE]
    apply hQ
    · exact ⟨⟨rfl, rfl, rfl, rfl, rfl, rfl, rfl, rfl, rfl, rfl, rfl⟩, rfl, rfl⟩
    · exact quotedRules_ne_any _ _ (plainRules_ne_any _ _ _ _)
    · intro hn
      apply h
      simpa [Bool.and_eq_true, and_assoc] using hn

/-- A scalar, from the selected style to the popped state. -/
theorem ewp_scalarBody {Q : Unit → Emitter → Prop} {E : EFail → Emitter → Prop} {s : Emitter} {x : EState}
    {K : List EState} (hs : s.states = x :: K) (hst : s.scalar.style ≠ .any)
    (hQ : ∀ u, Like s u → Q () { u with state := x, states := K }) :
    ewp (do processAnchor; processTag; increaseIndent true false; processScalar; popIndent; popStateE) Q E s := by
  rw [ewp_bind]
  refine quiet_processAnchor.ewp fun _ t ht => ?_
  rw [ewp_bind]
  refine quiet_processTag.ewp fun _ u hu => ?_
  rw [ewp_bind]
  apply ewp_increaseIndent
  rw [ewp_bind]
  have hk := ht.trans hu
  refine ewp_processScalar ?_ fun v hv => ?_
  · show u.scalar.style ≠ .any
    rw [hk.scalar]; exact hst
  · rw [ewp_bind]
    refine ewp_popIndent hv.like.indents ?_
    refine ewp_popStateE (x := x) (K := K) ?_ ?_
    · show v.states = x :: K
      rw [hv.like.states]
      show u.states = _
      rw [hk.like.states, hs]
    · have h2 : Like u { v with indent := u.indent, indents := u.indents } :=
        ⟨⟨hv.like.events, rfl, hv.like.tags, rfl, hv.like.flowLevel, hv.like.canonical, hv.like.encoding,
          hv.like.bestIndent, hv.like.bestWidth, hv.like.unicode, hv.like.lineBreak⟩, hv.like.state, hv.like.states⟩
      exact hQ _ (hk.like.trans h2)

/-- The result of emitting the node `e` when `fs` is what follows it. -/
def NodeDone (s : Emitter) (fs : List Frame) (e : EvData) (t : Emitter) : Prop :=
  t.events = s.events ∧ t.canonical = s.canonical ∧ GoodEvent s.canonical e ∧
  match e with
  | .alias _ | .scalar .. => Inv t (.doc fs)
  | .sequenceStart .. => Inv t (.doc (.seq :: fs))
  | .mappingStart .. => Inv t (.doc (.mapKey :: fs))
  | _ => False

/-- Emitting a node. -/
theorem ewp_emitNode {s : Emitter} {fs : List Frame} {e : EvData} (a b c d : Bool) (hR : NodeReady s fs) (hne : s.states ≠ [])
    (hg : GoodProps s.canonical e) (hn : TagNoted s e) :
    ewp (emitNode e a b c d) (fun _ t => NodeDone s fs e t)
      (fun err t => (∃ p, err = .emitter p) ∧ Fixed s t ∧ (¬ isNode e ∨ ¬ GoodEvent s.canonical e)) s := by
  unfold emitNode
  rw [ewp_bind, ewp_modE]
  generalize hs0 : ({ s with rootContext := a, sequenceContext := b, mappingContext := c, simpleKeyContext := d } : Emitter) = s0
  have hl : Like s s0 := by
    rw [← hs0]; exact ⟨⟨rfl, rfl, rfl, rfl, rfl, rfl, rfl, rfl, rfl, rfl, rfl⟩, rfl, rfl⟩
  have ht : s0.tagHandle = s.tagHandle ∧ s0.tagSuffix = s.tagSuffix := by rw [← hs0]; exact ⟨rfl, rfl⟩
  obtain ⟨x, K, hxK⟩ : ∃ x K, s.states = x :: K := by
    cases h : s.states with
    | nil => exact absurd h hne
    | cons x K => exact ⟨x, K, rfl⟩
  have bad : ∀ e, ¬ isNode e → ewp (failE "expected SCALAR, SEQUENCE-START, MAPPING-START, or ALIAS" : EM Unit)
      (fun _ t => NodeDone s fs e t)
      (fun err t => (∃ p, err = .emitter p) ∧ Fixed s t ∧ (¬ isNode e ∨ ¬ GoodEvent s.canonical e)) s0 :=
    fun e he => ⟨⟨_, rfl⟩, hl.fixed, Or.inl he⟩
  cases e with
  | streamStart enc => exact bad _ (fun h => h)
  | streamEnd => exact bad _ (fun h => h)
  | documentStart v ts i => exact bad _ (fun h => h)
  | documentEnd i => exact bad _ (fun h => h)
  | sequenceEnd => exact bad _ (fun h => h)
  | mappingEnd => exact bad _ (fun h => h)
  | «alias» an =>
    dsimp only
    unfold emitAlias
    rw [ewp_bind]
    refine quiet_processAnchor.ewp fun _ t ht1 => ?_
    rw [ewp_bind, ewp_getE, ewp_bind]
    refine (Quiet.whenE (quiet_putC _)).ewp fun _ u hu => ?_
    have hk := hl.trans (ht1.trans hu).like
    refine ewp_popStateE (x := x) (K := K) (by rw [hk.states, hxK]) ?_
    exact ⟨hk.events, hk.canonical, hg, (hR.like hk).pop (by rw [hk.states, hxK])⟩
  | scalar an tg v p q st =>
    dsimp only
    unfold emitScalar
    rw [ewp_bind]
    have hnn : (s.tagHandle = none ∧ s.tagSuffix = none) ↔
      (tg = none ∨ ¬ (s.canonical = true ∨ (p = false ∧ q = false))) := hn
    refine ewp_select (fun u hu hst hno => ?_) (fun pr hno => ?_)
    · refine ewp_scalarBody (x := x) (K := K) (by rw [hu.states, hl.states, hxK]) hst fun w hw => ?_
      have hk := hl.trans (hu.trans hw)
      refine ⟨hk.events, hk.canonical, ⟨hg.1, hg.2, fun htn => ?_⟩, (hR.like hk).pop (by rw [hk.states, hxK])⟩
      rw [ht.1, ht.2] at hno
      have := hnn.mpr (Or.inl htn)
      cases p
      · cases q
        · exact absurd ⟨this.1, this.2, rfl, rfl⟩ hno
        · exact Or.inr rfl
      · exact Or.inl rfl
    · refine ⟨⟨_, rfl⟩, hl.fixed, Or.inr fun hgood => ?_⟩
      rw [ht.1, ht.2] at hno
      rcases hnn.mp ⟨hno.1, hno.2.1⟩ with h | h
      · rcases hgood.2.2 h with h2 | h2
        · rw [hno.2.2.1] at h2; cases h2
        · rw [hno.2.2.2] at h2; cases h2
      · exact h (Or.inr ⟨hno.2.2.1, hno.2.2.2⟩)
  | sequenceStart an tg i st =>
    dsimp only
    unfold emitSequenceStart
    rw [ewp_bind]
    refine quiet_processAnchor.ewp fun _ t ht1 => ?_
    rw [ewp_bind]
    refine quiet_processTag.ewp fun _ u hu => ?_
    rw [ewp_bind, ewp_getE]
    have hk := hl.trans (ht1.trans hu).like
    refine ⟨hk.events, hk.canonical, hg, (hR.like hk).open_ ?_ ?_ ?_⟩ <;> split <;> rfl
  | mappingStart an tg i st =>
    dsimp only
    unfold emitMappingStart
    rw [ewp_bind]
    refine quiet_processAnchor.ewp fun _ t ht1 => ?_
    rw [ewp_bind]
    refine quiet_processTag.ewp fun _ u hu => ?_
    rw [ewp_bind, ewp_getE]
    have hk := hl.trans (ht1.trans hu).like
    refine ⟨hk.events, hk.canonical, hg, (hR.like hk).open_ ?_ ?_ ?_⟩ <;> split <;> rfl

/-! ### One event -/

/-- The event was accepted. -/
def StepOk (s : Emitter) (c : Cfg) (e : EvData) (t : Emitter) : Prop :=
  ∃ d, c.step e = some d ∧ Inv t d ∧ t.events = s.events ∧ t.canonical = s.canonical ∧ GoodEvent s.canonical e

/-- The event was refused. -/
def StepErr (s : Emitter) (c : Cfg) (e : EvData) (err : EFail) (t : Emitter) : Prop :=
  (∃ p, err = .emitter p) ∧ Fixed s t ∧ (c.step e = none ∨ ¬ GoodEvent s.canonical e)

/-- Inside a collection that has begun: one indentation more than the stack of states says, `m` flow levels more. -/
structure MidNode (m : Nat) (s t : Emitter) : Prop where
  events : t.events = s.events
  canonical : t.canonical = s.canonical
  state : t.state = s.state
  states : t.states = s.states
  tagHandle : t.tagHandle = s.tagHandle
  tagSuffix : t.tagSuffix = s.tagSuffix
  indents : t.indents.length = 1 + (s.states.map opened).sum
  flow : t.flowLevel = (m + (s.states.map inFlow).sum : Nat)

theorem MidNode.kin {m : Nat} {s t u : Emitter} (h : MidNode m s t) (k : Kin t u) : MidNode m s u :=
  ⟨k.like.events.trans h.events, k.like.canonical.trans h.canonical, k.like.state.trans h.state,
   k.like.states.trans h.states, k.tagHandle.trans h.tagHandle, k.tagSuffix.trans h.tagSuffix,
   by rw [k.like.indents]; exact h.indents, by rw [k.like.flowLevel]; exact h.flow⟩

theorem TagNoted.congr {s t : Emitter} {e : EvData} (h : TagNoted s e) (h1 : t.tagHandle = s.tagHandle)
    (h2 : t.tagSuffix = s.tagSuffix) (h3 : t.canonical = s.canonical) : TagNoted t e := by
  unfold TagNoted at *
  split <;> rename_i heq
  · rw [h1, h2, h3]; exact h
  · trivial

/-- A node inside `f`. -/
theorem step_node {s : Emitter} {f g : Frame} {K : List Frame} {e : EvData} (hf : f.advance = some g) {t : Emitter}
    (h : NodeDone s (g :: K) e t) : StepOk s (.doc (f :: K)) e t := by
  obtain ⟨h1, h2, h3, h4⟩ := h
  cases e with
  | streamStart enc => exact h4.elim
  | streamEnd => exact h4.elim
  | documentStart v ts i => exact h4.elim
  | documentEnd i => exact h4.elim
  | sequenceEnd => exact h4.elim
  | mappingEnd => exact h4.elim
  | «alias» a => exact ⟨_, by simp only [Cfg.step, hf, Option.map], h4, h1, h2, h3⟩
  | scalar a t v p q st => exact ⟨_, by simp only [Cfg.step, hf, Option.map], h4, h1, h2, h3⟩
  | sequenceStart a t i st => exact ⟨_, by simp only [Cfg.step, hf, Option.map], h4, h1, h2, h3⟩
  | mappingStart a t i st => exact ⟨_, by simp only [Cfg.step, hf, Option.map], h4, h1, h2, h3⟩

/-- The state is pushed and the node is emitted. -/
theorem ewp_child {s t : Emitter} {x : EState} {f g : Frame} {K : List Frame} {e : EvData} (a b c d : Bool)
    (hf : f.advance = some g) (hK : s.states.map frameOf = K.map some)
    (hx : frameOf x = some g) (hrest : resting x) (hrests : ∀ y ∈ s.states, resting y)
    (hcl : ¬ isNode e → (Cfg.doc (f :: K)).step e = none)
    (hg : GoodProps s.canonical e) (hn : TagNoted s e) (h1 : t.events = s.events) (h2 : t.canonical = s.canonical)
    (h3 : t.state = s.state) (h4 : t.states = s.states) (h5 : t.tagHandle = s.tagHandle) (h6 : t.tagSuffix = s.tagSuffix)
    (h7 : t.indents.length = opened x + (s.states.map opened).sum)
    (h8 : t.flowLevel = (inFlow x + (s.states.map inFlow).sum : Nat)) :
    ewp (do pushStateE x; emitNode e a b c d) (fun _ u => StepOk s (.doc (f :: K)) e u) (StepErr s (.doc (f :: K)) e) t := by
  rw [ewp_bind]
  apply ewp_pushState
  have hR : NodeReady { t with states := x :: t.states } (g :: K) := by
    refine ⟨?_, ?_, ?_, ?_⟩
    · show t.indents.length = ((x :: t.states).map opened).sum
      rw [h4]; simpa using h7
    · show t.flowLevel = (((x :: t.states).map inFlow).sum : Nat)
      rw [h4]; simpa using h8
    · intro y hy
      rw [show ({ t with states := x :: t.states } : Emitter).states = x :: s.states from by rw [← h4]] at hy
      rcases List.mem_cons.mp hy with rfl | hy
      · exact hrest
      · exact hrests y hy
    · show (x :: t.states).map frameOf = _
      rw [h4, List.map_cons, List.map_cons, hx, hK]
  refine ewp_mono (ewp_emitNode a b c d hR (by simp) ?_ ?_) ?_ ?_
  · show GoodProps t.canonical e; rw [h2]; exact hg
  · exact hn.congr h5 h6 h2
  · rintro _ u ⟨k1, k2, k3, k4⟩
    rw [show ({ t with states := x :: t.states } : Emitter).canonical = t.canonical from rfl, h2] at k3 k2
    exact step_node hf ⟨k1.trans h1, k2, k3, k4⟩
  · rintro err u ⟨k1, k2, k3⟩
    refine ⟨k1, ⟨k2.events.trans h1, k2.canonical.trans h2, k2.state.trans h3⟩, ?_⟩
    rcases k3 with k3 | k3
    · exact Or.inl (hcl k3)
    · right
      rw [show ({ t with states := x :: t.states } : Emitter).canonical = t.canonical from rfl, h2] at k3
      exact k3

theorem ewp_openFlow {Q : Unit → Emitter → Prop} {E : EFail → Emitter → Prop} {s : Emitter} {c : Nat}
    (hi : s.indents.length = (s.states.map opened).sum) (hf : s.flowLevel = ((s.states.map inFlow).sum : Nat))
    (h : ∀ t, MidNode 1 s t → Q () t) : ewp (openFlow c) Q E s := by
  unfold openFlow
  rw [ewp_bind]
  refine (quiet_writeIndicator _ _ _ _).ewp fun _ u hu => ?_
  rw [ewp_bind]
  apply ewp_increaseIndent
  rw [ewp_modE]
  refine h _ ⟨hu.like.events, hu.like.canonical, hu.like.state, hu.like.states, hu.tagHandle, hu.tagSuffix, ?_, ?_⟩
  · show (u.indent :: u.indents).length = _
    rw [List.length_cons, hu.like.indents, hi, Nat.add_comm]
  · show u.flowLevel + 1 = _
    rw [hu.like.flowLevel, hf]
    omega

/-- The end of a collection. -/
theorem Inv.close {s t : Emitter} {f : Frame} {K : List Frame} {x : EState} {L : List EState} (hI : Inv s (.doc (f :: K)))
    (hs : s.states = x :: L) (h1 : t.state = x) (h2 : t.states = L)
    (h3 : t.indents.length = (s.states.map opened).sum) (h4 : t.flowLevel = ((s.states.map inFlow).sum : Nat)) :
    Inv t (.doc K) := by
  cases hI with
  | doc hS hF =>
    refine .doc ⟨?_, ?_, ?_⟩ ?_
    · rw [h3, h1, h2, hs]
    · rw [h4, h1, h2, hs]
    · rw [h2]
      exact fun y hy => hS.resting y (by rw [hs]; exact List.mem_cons_of_mem _ hy)
    · rw [h1, h2, ← hs]
      rw [List.map_cons, List.map_cons] at hF
      exact (List.cons.inj hF).2

/-- The stacks when the state is inside a document. -/
theorem Inv.parts {s : Emitter} {fs : List Frame} (h : Inv s (.doc fs)) :
    ∃ f K, fs = f :: K ∧ frameOf s.state = some f ∧ s.states.map frameOf = K.map some := by
  cases h with
  | doc hS hF =>
    cases fs with
    | nil => rw [List.map_cons] at hF; simp at hF
    | cons f K =>
      rw [List.map_cons, List.map_cons] at hF
      exact ⟨f, K, rfl, (List.cons.inj hF).1, (List.cons.inj hF).2⟩

theorem Inv.stacks {s : Emitter} {c : Cfg} (h : Inv s c) : Stacks s := by
  cases h <;> assumption

theorem Inv.under {s : Emitter} {f : Frame} {K : List Frame} (hI : Inv s (.doc (f :: K))) (hG : Cfg.Good (.doc (f :: K)))
    (h1 : f ≠ .docNode) (h2 : f ≠ .docEnd) : ∃ x L, s.states = x :: L := by
  obtain ⟨f', K', he, _, hK⟩ := hI.parts
  injection he with he1 he2
  subst he1; subst he2
  cases hG with
  | bottom hor => rcases hor with rfl | rfl <;> contradiction
  | push _ _ hK' =>
    cases K with
    | nil => cases hK'
    | cons g K =>
      cases hs : s.states with
      | nil => rw [hs] at hK; cases hK
      | cons x L => exact ⟨x, L, rfl⟩

/-- Closing a flow collection. -/
theorem ewp_closeFlow {s t : Emitter} {f : Frame} {K : List Frame} {c : Nat} {first : Bool} {e : EvData}
    (hI : Inv s (.doc (f :: K))) (hG : Cfg.Good (.doc (f :: K))) (h1 : f ≠ .docNode) (h2 : f ≠ .docEnd)
    (hM : MidNode 1 s t) (hstep : (Cfg.doc (f :: K)).step e = some (.doc K)) (hge : GoodEvent s.canonical e) :
    ewp (closeFlow c first) (fun _ u => StepOk s (.doc (f :: K)) e u) (StepErr s (.doc (f :: K)) e) t := by
  obtain ⟨x, L, hs⟩ := hI.under hG h1 h2
  unfold closeFlow
  rw [ewp_bind, ewp_modE, ewp_bind]
  have hlen := hM.indents
  obtain ⟨i, J, hiJ⟩ : ∃ i J, t.indents = i :: J := by
    cases h : t.indents with
    | nil => rw [h] at hlen; simp at hlen; omega
    | cons i J => exact ⟨i, J, rfl⟩
  rw [hiJ] at hlen
  refine ewp_popIndent (x := i) (K := J) hiJ ?_
  rw [ewp_bind, ewp_getE, ewp_bind]
  refine (Quiet.whenE ((quiet_writeIndicator _ _ _ _).bind fun _ => quiet_writeIndent)).ewp fun _ u hu => ?_
  rw [ewp_bind]
  refine (quiet_writeIndicator _ _ _ _).ewp fun _ v hv => ?_
  have hk := (hu.trans hv).like
  refine ewp_popStateE (x := x) (K := L) (by rw [hk.states]; exact hM.states.trans hs) ?_
  refine ⟨_, hstep, hI.close hs rfl rfl ?_ ?_, hk.events.trans hM.events, hk.canonical.trans hM.canonical, hge⟩
  · show v.indents.length = _
    rw [hk.indents]
    show J.length = _
    rw [List.length_cons] at hlen
    omega
  · show v.flowLevel = _
    rw [hk.flowLevel]
    show t.flowLevel - 1 = _
    rw [hM.flow]
    omega

/-- Closing a block collection. -/
theorem ewp_closeBlock {s t : Emitter} {f : Frame} {K : List Frame} {e : EvData}
    (hI : Inv s (.doc (f :: K))) (hG : Cfg.Good (.doc (f :: K))) (h1 : f ≠ .docNode) (h2 : f ≠ .docEnd)
    (hM : MidNode 0 s t) (hstep : (Cfg.doc (f :: K)).step e = some (.doc K)) (hge : GoodEvent s.canonical e) :
    ewp (do popIndent; popStateE) (fun _ u => StepOk s (.doc (f :: K)) e u) (StepErr s (.doc (f :: K)) e) t := by
  obtain ⟨x, L, hs⟩ := hI.under hG h1 h2
  rw [ewp_bind]
  have hlen := hM.indents
  obtain ⟨i, J, hiJ⟩ : ∃ i J, t.indents = i :: J := by
    cases h : t.indents with
    | nil => rw [h] at hlen; simp at hlen; omega
    | cons i J => exact ⟨i, J, rfl⟩
  rw [hiJ] at hlen
  refine ewp_popIndent (x := i) (K := J) hiJ ?_
  refine ewp_popStateE (x := x) (K := L) (hM.states.trans hs) ?_
  refine ⟨_, hstep, hI.close hs rfl rfl ?_ ?_, hM.events, hM.canonical, hge⟩
  · show J.length = _
    rw [List.length_cons] at hlen
    omega
  · show t.flowLevel = _
    rw [hM.flow]
    omega

/-- Beginning a collection, or not. -/
theorem Stacks.mid {s : Emitter} {m : Nat} (h : Stacks s) (h1 : opened s.state = 1) (h2 : inFlow s.state = m) : MidNode m s s :=
  ⟨rfl, rfl, rfl, rfl, rfl, rfl, by rw [h.indents]; simp [h1], by rw [h.flow]; simp [h2]⟩

theorem Stacks.first {s : Emitter} (h : Stacks s) (h1 : opened s.state = 0) (h2 : inFlow s.state = 0) :
    s.indents.length = (s.states.map opened).sum ∧ s.flowLevel = ((s.states.map inFlow).sum : Nat) :=
  ⟨by rw [h.indents]; simp [h1], by rw [h.flow]; simp [h2]⟩

theorem ewp_maybeOpen {Q : Unit → Emitter → Prop} {E : EFail → Emitter → Prop} {s : Emitter} {c : Nat} {first : Bool}
    (hS : Stacks s) (h1 : opened s.state = if first then 0 else 1) (h2 : inFlow s.state = if first then 0 else 1)
    (h : ∀ t, MidNode 1 s t → Q () t) : ewp (whenE first (openFlow c)) Q E s := by
  rw [ewp_whenE]
  cases first
  · exact h _ (hS.mid h1 h2)
  · exact ewp_openFlow (hS.first h1 h2).1 (hS.first h1 h2).2 h

theorem ewp_maybeIndent {Q : Unit → Emitter → Prop} {E : EFail → Emitter → Prop} {s : Emitter} {a b : Bool} {first : Bool}
    (hS : Stacks s) (h1 : opened s.state = if first then 0 else 1) (h2 : inFlow s.state = 0)
    (h : ∀ t, MidNode 0 s t → Q () t) : ewp (whenE first (increaseIndent a b)) Q E s := by
  rw [ewp_whenE]
  cases first
  · exact h _ (hS.mid h1 h2)
  · rw [if_pos rfl]
    apply ewp_increaseIndent
    have := hS.first h1 h2
    refine h _ ⟨rfl, rfl, rfl, rfl, rfl, rfl, ?_, ?_⟩
    · show (s.indent :: s.indents).length = _
      rw [List.length_cons, this.1, Nat.add_comm]
    · show s.flowLevel = _
      rw [this.2]; simp

section
variable {s : Emitter} {K : List Frame} {e : EvData}

theorem not_node_seq (h : ¬ isNode e) (h2 : e ≠ .sequenceEnd) : (Cfg.doc (.seq :: K)).step e = none := by
  cases e with
  | sequenceEnd => exact absurd rfl h2
  | «alias» a => exact absurd trivial h
  | scalar a t v p q st => exact absurd trivial h
  | sequenceStart a t i st => exact absurd trivial h
  | mappingStart a t i st => exact absurd trivial h
  | _ => rfl

theorem not_node_key (h : ¬ isNode e) (h2 : e ≠ .mappingEnd) : (Cfg.doc (.mapKey :: K)).step e = none := by
  cases e with
  | mappingEnd => exact absurd rfl h2
  | «alias» a => exact absurd trivial h
  | scalar a t v p q st => exact absurd trivial h
  | sequenceStart a t i st => exact absurd trivial h
  | mappingStart a t i st => exact absurd trivial h
  | _ => rfl

theorem not_node_val (h : ¬ isNode e) : (Cfg.doc (.mapVal :: K)).step e = none := by
  cases e with
  | «alias» a => exact absurd trivial h
  | scalar a t v p q st => exact absurd trivial h
  | sequenceStart a t i st => exact absurd trivial h
  | mappingStart a t i st => exact absurd trivial h
  | _ => rfl

theorem not_node_root (h : ¬ isNode e) : (Cfg.doc (.docNode :: K)).step e = none := by
  cases e with
  | «alias» a => exact absurd trivial h
  | scalar a t v p q st => exact absurd trivial h
  | sequenceStart a t i st => exact absurd trivial h
  | mappingStart a t i st => exact absurd trivial h
  | _ => rfl

/-- A child of a collection that has begun. -/
theorem MidNode.child {t : Emitter} {m : Nat} {x : EState} {f g : Frame} (a b c d : Bool) (hM : MidNode m s t)
    (hI : Inv s (.doc (f :: K))) (hf : f.advance = some g) (hx : frameOf x = some g) (hx1 : opened x = 1)
    (hx2 : inFlow x = m) (hcl : ¬ isNode e → (Cfg.doc (f :: K)).step e = none)
    (hg : GoodProps s.canonical e) (hn : TagNoted s e) :
    ewp (do pushStateE x; emitNode e a b c d) (fun _ u => StepOk s (.doc (f :: K)) e u) (StepErr s (.doc (f :: K)) e) t := by
  obtain ⟨f', K', he, _, hK⟩ := hI.parts
  injection he with he1 he2
  subst he1; subst he2
  have hrest : resting x := by
    unfold resting; split
    · trivial
    · exact hx1
  exact ewp_child a b c d hf hK hx hrest hI.stacks.resting hcl hg hn hM.events hM.canonical hM.state hM.states hM.tagHandle
    hM.tagSuffix (by rw [hM.indents, hx1]) (by rw [hM.flow, hx2])

theorem ewp_flowSequence (first : Bool) (hI : Inv s (.doc (.seq :: K))) (hG : Cfg.Good (.doc (.seq :: K)))
    (h1 : opened s.state = if first then 0 else 1) (h2 : inFlow s.state = if first then 0 else 1)
    (hg : GoodProps s.canonical e) (hn : TagNoted s e) :
    ewp (emitFlowSequenceItem e first) (fun _ u => StepOk s (.doc (.seq :: K)) e u) (StepErr s (.doc (.seq :: K)) e) s := by
  unfold emitFlowSequenceItem
  rw [ewp_bind]
  refine ewp_maybeOpen hI.stacks h1 h2 fun t hM => ?_
  rw [ewp_ite]
  split
  · rename_i he
    subst he
    exact ewp_closeFlow hI hG (by simp) (by simp) hM rfl trivial
  · rename_i he
    rw [ewp_bind]
    refine (Quiet.whenE (quiet_writeIndicator _ _ _ _)).ewp fun _ u hu => ?_
    rw [ewp_bind, ewp_getE, ewp_bind]
    refine (Quiet.whenE quiet_writeIndent).ewp fun _ v hv => ?_
    exact ((hM.kin hu).kin hv).child _ _ _ _ hI rfl rfl rfl rfl (fun h => not_node_seq h he) hg hn

theorem ewp_flowKey (first : Bool) (hI : Inv s (.doc (.mapKey :: K))) (hG : Cfg.Good (.doc (.mapKey :: K)))
    (h1 : opened s.state = if first then 0 else 1) (h2 : inFlow s.state = if first then 0 else 1)
    (hg : GoodProps s.canonical e) (hn : TagNoted s e) :
    ewp (emitFlowMappingKey e first) (fun _ u => StepOk s (.doc (.mapKey :: K)) e u) (StepErr s (.doc (.mapKey :: K)) e) s := by
  unfold emitFlowMappingKey
  rw [ewp_bind]
  refine ewp_maybeOpen hI.stacks h1 h2 fun t hM => ?_
  rw [ewp_ite]
  split
  · rename_i he
    subst he
    exact ewp_closeFlow hI hG (by simp) (by simp) hM rfl trivial
  · rename_i he
    rw [ewp_bind]
    refine (Quiet.whenE (quiet_writeIndicator _ _ _ _)).ewp fun _ u hu => ?_
    rw [ewp_bind, ewp_getE, ewp_bind]
    refine (Quiet.whenE quiet_writeIndent).ewp fun _ v hv => ?_
    rw [ewp_bind, ewp_getE, ewp_bind, ewp_getE, ewp_ite]
    have hM2 := (hM.kin hu).kin hv
    split
    · exact hM2.child _ _ _ _ hI rfl rfl rfl rfl (fun h => not_node_key h he) hg hn
    · rw [ewp_bind]
      refine (quiet_writeIndicator _ _ _ _).ewp fun _ w hw => ?_
      exact (hM2.kin hw).child _ _ _ _ hI rfl rfl rfl rfl (fun h => not_node_key h he) hg hn

theorem ewp_flowValue (simple : Bool) (hI : Inv s (.doc (.mapVal :: K)))
    (h1 : opened s.state = 1) (h2 : inFlow s.state = 1) (hg : GoodProps s.canonical e) (hn : TagNoted s e) :
    ewp (emitFlowMappingValue e simple) (fun _ u => StepOk s (.doc (.mapVal :: K)) e u)
      (StepErr s (.doc (.mapVal :: K)) e) s := by
  unfold emitFlowMappingValue
  rw [ewp_bind]
  have hM : MidNode 1 s s := hI.stacks.mid h1 h2
  have hq : Quiet (if simple = true then writeIndicator [c! ':'] false false false
      else do
        whenE (← getE).tooWide writeIndent
        writeIndicator [c! ':'] true false false) :=
    Quiet.ite (quiet_writeIndicator _ _ _ _)
      (Quiet.getE.bind fun _ => (Quiet.whenE quiet_writeIndent).bind fun _ => quiet_writeIndicator _ _ _ _)
  refine hq.ewp fun _ t ht => ?_
  exact (hM.kin ht).child _ _ _ _ hI rfl rfl rfl rfl (fun h => not_node_val h) hg hn

theorem ewp_blockSequence (first : Bool) (hI : Inv s (.doc (.seq :: K))) (hG : Cfg.Good (.doc (.seq :: K)))
    (h1 : opened s.state = if first then 0 else 1) (h2 : inFlow s.state = 0)
    (hg : GoodProps s.canonical e) (hn : TagNoted s e) :
    ewp (emitBlockSequenceItem e first) (fun _ u => StepOk s (.doc (.seq :: K)) e u) (StepErr s (.doc (.seq :: K)) e) s := by
  unfold emitBlockSequenceItem
  rw [ewp_bind]
  have hb : ∀ {Q E}, (∀ t, MidNode 0 s t → Q () t) →
      ewp (whenE first (do increaseIndent false ((← getE).mappingContext && !(← getE).indention))) Q E s := by
    intro Q E h
    rw [ewp_whenE]
    have := ewp_maybeIndent (E := E) (a := false) (b := s.mappingContext && !s.indention) hI.stacks h1 h2 h
    rw [ewp_whenE] at this
    split
    · rename_i hf
      rw [if_pos hf] at this
      rw [ewp_bind, ewp_getE, ewp_bind, ewp_getE]
      exact this
    · rename_i hf
      rw [if_neg hf] at this
      exact this
  refine hb fun t hM => ?_
  rw [ewp_ite]
  split
  · rename_i he
    subst he
    exact ewp_closeBlock hI hG (by simp) (by simp) hM rfl trivial
  · rename_i he
    rw [ewp_bind]
    refine quiet_writeIndent.ewp fun _ u hu => ?_
    rw [ewp_bind]
    refine (quiet_writeIndicator _ _ _ _).ewp fun _ v hv => ?_
    exact ((hM.kin hu).kin hv).child _ _ _ _ hI rfl rfl rfl rfl (fun h => not_node_seq h he) hg hn

theorem ewp_blockKey (first : Bool) (hI : Inv s (.doc (.mapKey :: K))) (hG : Cfg.Good (.doc (.mapKey :: K)))
    (h1 : opened s.state = if first then 0 else 1) (h2 : inFlow s.state = 0)
    (hg : GoodProps s.canonical e) (hn : TagNoted s e) :
    ewp (emitBlockMappingKey e first) (fun _ u => StepOk s (.doc (.mapKey :: K)) e u)
      (StepErr s (.doc (.mapKey :: K)) e) s := by
  unfold emitBlockMappingKey
  rw [ewp_bind]
  refine ewp_maybeIndent hI.stacks h1 h2 fun t hM => ?_
  rw [ewp_ite]
  split
  · rename_i he
    subst he
    exact ewp_closeBlock hI hG (by simp) (by simp) hM rfl trivial
  · rename_i he
    rw [ewp_bind]
    refine quiet_writeIndent.ewp fun _ u hu => ?_
    rw [ewp_bind, ewp_getE, ewp_ite]
    have hM2 := hM.kin hu
    split
    · exact hM2.child _ _ _ _ hI rfl rfl rfl rfl (fun h => not_node_key h he) hg hn
    · rw [ewp_bind]
      refine (quiet_writeIndicator _ _ _ _).ewp fun _ w hw => ?_
      exact (hM2.kin hw).child _ _ _ _ hI rfl rfl rfl rfl (fun h => not_node_key h he) hg hn

theorem ewp_blockValue (simple : Bool) (hI : Inv s (.doc (.mapVal :: K)))
    (h1 : opened s.state = 1) (h2 : inFlow s.state = 0) (hg : GoodProps s.canonical e) (hn : TagNoted s e) :
    ewp (emitBlockMappingValue e simple) (fun _ u => StepOk s (.doc (.mapVal :: K)) e u)
      (StepErr s (.doc (.mapVal :: K)) e) s := by
  unfold emitBlockMappingValue
  rw [ewp_bind]
  have hM : MidNode 0 s s := hI.stacks.mid h1 h2
  have hq : Quiet (if simple = true then writeIndicator [c! ':'] false false false
      else do
        writeIndent
        writeIndicator [c! ':'] true false true) :=
    Quiet.ite (quiet_writeIndicator _ _ _ _) (quiet_writeIndent.bind fun _ => quiet_writeIndicator _ _ _ _)
  refine hq.ewp fun _ t ht => ?_
  exact (hM.kin ht).child _ _ _ _ hI rfl rfl rfl rfl (fun h => not_node_val h) hg hn

theorem ewp_documentContent (hI : Inv s (.doc (.docNode :: K))) (h0 : s.state = .documentContent)
    (hg : GoodProps s.canonical e) (hn : TagNoted s e) :
    ewp (emitDocumentContent e) (fun _ u => StepOk s (.doc (.docNode :: K)) e u) (StepErr s (.doc (.docNode :: K)) e) s := by
  unfold emitDocumentContent
  obtain ⟨f', K', he, _, hK⟩ := hI.parts
  injection he with he1 he2
  subst he2
  have := hI.stacks.first (by rw [h0]; rfl) (by rw [h0]; rfl)
  exact ewp_child _ _ _ _ rfl hK rfl trivial hI.stacks.resting (fun h => not_node_root h) hg hn rfl rfl rfl rfl rfl rfl
    (by rw [this.1]; exact (Nat.zero_add _).symm) (by rw [this.2]; show _ = ((0 + _ : Nat) : Int); rw [Nat.zero_add])

end

/-! ### Documents -/

theorem handle_iff (d : TagDir) : Handle d.handle ↔
    (d.handle.isEmpty = false ∧ nextC d.handle = c! '!' ∧ nextC d.handle.reverse = c! '!'
      ∧ d.handle.tail.dropLast.all isAlpha = true) := by
  generalize d.handle = h
  constructor
  · rintro (rfl | ⟨w, rfl, hw⟩)
    · decide
    · refine ⟨rfl, rfl, ?_, ?_⟩
      · rw [List.reverse_cons, List.reverse_append]; rfl
      · rw [List.tail_cons, List.dropLast_concat, List.all_eq_true]
        exact fun c hc => (isAlpha_iff c).mpr (hw c hc)
  · rintro ⟨h1, h2, h3, h4⟩
    cases h with
    | nil => cases h1
    | cons a h =>
      have ha : a = 0x21 := h2
      subst ha
      rcases List.eq_nil_or_concat h with rfl | ⟨w, b, rfl⟩
      · exact Or.inl rfl
      · right
        rw [List.concat_eq_append] at *
        rw [List.reverse_cons, List.reverse_append] at h3
        have hb : b = 0x21 := h3
        subst hb
        rw [List.tail_cons, List.dropLast_concat, List.all_eq_true] at h4
        exact ⟨w, rfl, fun c hc => (isAlpha_iff c).mp (h4 c hc)⟩

theorem ewp_analyzeTagDirective {Q : Unit → Emitter → Prop} {E : EFail → Emitter → Prop} {s : Emitter} {d : TagDir}
    (hQ : Handle d.handle → d.pfx ≠ [] → Q () s) (hE : ∀ p, ¬ (Handle d.handle ∧ d.pfx ≠ []) → E (.emitter p) s) :
    ewp (analyzeTagDirective d) Q E s := by
  rw [handle_iff] at hQ hE
  unfold analyzeTagDirective
  rw [ewp_ite]
  split
  · rename_i h
    exact hE _ fun hh => by rw [hh.1.1] at h; cases h
  · rename_i h1
    rw [ewp_ite]
    split
    · rename_i h
      exact hE _ fun hh => by rw [hh.1.2.1] at h; exact absurd h (by decide)
    · rename_i h2
      rw [ewp_ite]
      split
      · rename_i h
        exact hE _ fun hh => by rw [hh.1.2.2.1] at h; exact absurd h (by decide)
      · rename_i h3
        rw [ewp_ite]
        split
        · rename_i h
          exact hE _ fun hh => by rw [hh.1.2.2.2] at h; cases h
        · rename_i h4
          rw [ewp_ite]
          split
          · rename_i h
            exact hE _ fun hh => hh.2 (List.isEmpty_iff.mp h)
          · rename_i h5
            refine hQ ⟨?_, ?_, ?_, ?_⟩ ?_
            · simpa using h1
            · simpa using h2
            · simpa using h3
            · cases hq : d.handle.tail.dropLast.all isAlpha with
              | true => rfl
              | false => rw [hq] at h4; exact absurd rfl h4
            · intro hn; exact h5 (by rw [hn]; rfl)

theorem ewp_appendTagDirective {Q : Unit → Emitter → Prop} {E : EFail → Emitter → Prop} {s : Emitter} {d : TagDir}
    {dup : Bool} (h1 : d.handle ∉ s.tags.map TagDir.handle → Q () { s with tags := s.tags ++ [d] })
    (h2 : dup = true → Q () s) (h3 : ∀ p, dup = false → d.handle ∈ s.tags.map TagDir.handle → E (.emitter p) s) :
    ewp (appendTagDirective d dup) Q E s := by
  unfold appendTagDirective
  rw [ewp_bind, ewp_getE, ewp_ite]
  split
  · rename_i h
    rw [ewp_ite]
    split
    · rename_i hd; exact h2 hd
    · rename_i hd
      refine h3 _ (by simpa using hd) ?_
      rw [List.any_eq_true] at h
      obtain ⟨t, ht, he⟩ := h
      rw [List.mem_map]
      exact ⟨t, ht, by simpa using he⟩
  · rename_i h
    rw [ewp_bind, ewp_opE, ewp_modE]
    refine h1 fun hm => h ?_
    rw [List.any_eq_true]
    rw [List.mem_map] at hm
    obtain ⟨t, ht, he⟩ := hm
    exact ⟨t, ht, by simpa using he⟩

/-- Same as before, apart from the tag directives. -/
structure ButTags (s t : Emitter) : Prop where
  eq : t = { s with tags := t.tags }

theorem ewp_appendTags {Q : Unit → Emitter → Prop} {E : EFail → Emitter → Prop} {ts : List TagDir} :
    ∀ {s : Emitter}, (((∀ d ∈ ts, Handle d.handle ∧ d.pfx ≠ []) ∧ ((s.tags ++ ts).map TagDir.handle).Nodup) →
        Q () { s with tags := s.tags ++ ts }) →
    (s.tags.map TagDir.handle).Nodup →
    (∀ p us, ¬ ((∀ d ∈ ts, Handle d.handle ∧ d.pfx ≠ []) ∧ ((s.tags ++ ts).map TagDir.handle).Nodup) →
        E (.emitter p) { s with tags := us }) → ewp (appendTags ts) Q E s := by
  induction ts with
  | nil =>
    intro s hQ hn _
    show Q () s
    have := hQ ⟨fun d hd => (List.not_mem_nil hd).elim, by rw [List.append_nil]; exact hn⟩
    rwa [List.append_nil] at this
  | cons d ts ih =>
    intro s hQ hn hE
    unfold appendTags
    rw [ewp_bind]
    refine ewp_analyzeTagDirective (fun g1 g2 => ?_) (fun p hp => hE p s.tags fun h => hp (h.1 d (List.mem_cons_self ..)))
    rw [ewp_bind]
    refine ewp_appendTagDirective (fun hnot => ?_) (fun h => nomatch h) (fun p _ hmem => hE p s.tags fun h => ?_)
    · refine ih ?_ ?_ ?_
      · show ((∀ d' ∈ ts, _) ∧ ((s.tags ++ [d] ++ ts).map TagDir.handle).Nodup) → Q () { s with tags := s.tags ++ [d] ++ ts }
        rw [List.append_assoc, List.singleton_append]
        rintro ⟨k1, k2⟩
        refine hQ ⟨fun d' hd' => ?_, k2⟩
        rcases List.mem_cons.mp hd' with rfl | hd'
        · exact ⟨g1, g2⟩
        · exact k1 d' hd'
      · show ((s.tags ++ [d]).map TagDir.handle).Nodup
        rw [List.map_append, List.nodup_append]
        refine ⟨hn, by simp, ?_⟩
        intro a ha b hb hab
        simp at hb
        rw [hab, hb] at ha
        exact hnot ha
      · intro p us hno
        refine hE p us fun h => hno ⟨fun d' hd' => h.1 d' (List.mem_cons_of_mem _ hd'), ?_⟩
        show ((s.tags ++ [d] ++ ts).map TagDir.handle).Nodup
        rw [List.append_assoc, List.singleton_append]
        exact h.2
    · have := h.2
      rw [List.map_append, List.nodup_append] at this
      exact this.2.2 _ hmem d.handle (by simp) rfl

theorem ewp_appendDefaults {Q : Unit → Emitter → Prop} {E : EFail → Emitter → Prop} {ts : List TagDir} :
    ∀ {s : Emitter}, (∀ us, Q () { s with tags := us }) → ewp (addDefaults ts) Q E s := by
  induction ts with
  | nil => intro s hQ; exact hQ s.tags
  | cons d ts ih =>
    intro s hQ
    unfold addDefaults
    rw [ewp_bind]
    refine ewp_appendTagDirective (fun _ => ih fun us => hQ us) (fun _ => ih fun us => hQ us) (fun _ h => nomatch h)

theorem ewp_analyzeVersion {Q : Unit → Emitter → Prop} {E : EFail → Emitter → Prop} {s : Emitter} {v : Version}
    (hQ : GoodVersion v → Q () s) (hE : ∀ p, ¬ GoodVersion v → E (.emitter p) s) : ewp (analyzeVersion v) Q E s := by
  unfold analyzeVersion
  rw [ewp_ite]
  split
  · rename_i h
    exact hE _ fun hg => by simp [GoodVersion] at hg; simp at h; omega
  · rename_i h
    exact hQ (by simp at h; unfold GoodVersion; omega)

theorem quiet_someE {α : Type} {x : Option α} {f : α → EM Unit} (h : ∀ a, Quiet (f a)) : Quiet (someE x f) := by
  cases x with
  | none => exact Quiet.pure _
  | some a => exact h a

section
variable {s : Emitter} {e : EvData}

theorem ewp_documentStartEvent {v : Option Version} {ts : List TagDir} {i first : Bool} (hI : Inv s .docs) :
    ewp (emitDocumentStartEvent v ts i first) (fun _ u => StepOk s .docs (.documentStart v ts i) u)
      (StepErr s .docs (.documentStart v ts i)) s := by
  unfold emitDocumentStartEvent
  cases hI with
  | docs hS hst hss htags =>
  have hbad : ∀ p us, ¬ (GoodEvent s.canonical (.documentStart v ts i)) →
      StepErr s .docs (.documentStart v ts i) (.emitter p) { s with tags := us } :=
    fun p us hn => ⟨⟨p, rfl⟩, ⟨rfl, rfl, rfl⟩, Or.inr hn⟩
  have hgood : (∀ x, v = some x → GoodVersion x) → ewp (do
      appendTags ts
      addDefaults emitterDefaultTags
      whenE ((v.isSome || !ts.isEmpty) && (← getE).openEnded != 0)
        (do writeIndicator dots true false false; writeIndent)
      modE fun s => { s with openEnded := 0 }
      someE v writeVersion
      writeTags ts
      whenE (!(i && first && !(← getE).canonical && v.isNone && ts.isEmpty))
        (do
          writeIndent
          writeIndicator (lit ['-', '-', '-']) true false false
          whenE (← getE).canonical writeIndent)
      setStateE .documentContent
      modE fun s => { s with openEnded := 0 }) (fun _ u => StepOk s .docs (.documentStart v ts i) u)
      (StepErr s .docs (.documentStart v ts i)) s := by
    intro hv
    rw [ewp_bind]
    refine ewp_appendTags (fun hg => ?_) (by rw [htags]; exact List.nodup_nil) (fun p us hn => hbad p us fun h => hn ⟨h.2.1, ?_⟩)
    · rw [ewp_bind]
      refine ewp_appendDefaults fun us => ?_
      rw [ewp_bind, ewp_getE, ewp_bind]
      refine (Quiet.whenE ((quiet_writeIndicator _ _ _ _).bind fun _ => quiet_writeIndent)).ewp fun _ t1 ht1 => ?_
      rw [ewp_bind, ewp_modE, ewp_bind]
      refine (quiet_someE quiet_writeVersion).ewp fun _ t2 ht2 => ?_
      rw [ewp_bind]
      refine (quiet_writeTags _).ewp fun _ t3 ht3 => ?_
      rw [ewp_bind, ewp_getE, ewp_bind]
      refine (Quiet.whenE (quiet_writeIndent.bind fun _ => (quiet_writeIndicator _ _ _ _).bind fun _ =>
        Quiet.getE.bind fun _ => Quiet.whenE quiet_writeIndent)).ewp fun _ t4 ht4 => ?_
      unfold setStateE
      rw [ewp_bind, ewp_modE, ewp_modE]
      have k1 := ht1.like
      have k2 := ((ht2.trans ht3).trans ht4).like
      have hi : t4.indents = s.indents := k2.indents.trans k1.indents
      have hf : t4.flowLevel = s.flowLevel := k2.flowLevel.trans k1.flowLevel
      have hs4 : t4.states = [] := (k2.states.trans k1.states).trans hss
      have h0 : opened s.state = 0 ∧ inFlow s.state = 0 := by
        rcases hst with h | h <;> rw [h] <;> exact ⟨rfl, rfl⟩
      have hfst := hS.first h0.1 h0.2
      rw [hss] at hfst
      refine ⟨_, rfl, .doc ⟨?_, ?_, ?_⟩ ?_, k2.events.trans k1.events, k2.canonical.trans k1.canonical,
        ⟨hv, hg.1, ?_⟩⟩
      · show t4.indents.length = ((EState.documentContent :: t4.states).map opened).sum
        rw [hi, hs4, hfst.1]; rfl
      · show t4.flowLevel = (((EState.documentContent :: t4.states).map inFlow).sum : Nat)
        rw [hf, hs4, hfst.2]; rfl
      · show ∀ x ∈ t4.states, resting x
        rw [hs4]; exact fun x hx => (List.not_mem_nil hx).elim
      · show (EState.documentContent :: t4.states).map frameOf = _
        rw [hs4]; rfl
      · have := hg.2
        rwa [htags] at this
    · rw [htags]; exact h.2.2
  rw [ewp_bind]
  refine ewp_someE (fun hn => ?_) (fun x hx => ?_)
  · exact hgood fun x hx => by rw [hn] at hx; cases hx
  · refine ewp_analyzeVersion (fun hv => ?_) (fun p hp => hbad p s.tags fun h => hp (h.1 x hx))
    refine hgood fun y hy => ?_
    rw [hx] at hy
    injection hy with hy
    rw [← hy]; exact hv

theorem ewp_streamEndEvent (hI : Inv s .docs) :
    ewp emitStreamEndEvent (fun _ u => StepOk s .docs .streamEnd u) (StepErr s .docs .streamEnd) s := by
  unfold emitStreamEndEvent
  cases hI with
  | docs hS hst hss htags =>
  rw [ewp_bind, ewp_getE, ewp_bind]
  have hq : Quiet (do
      writeIndicator dots true false false
      modE fun s => { s with openEnded := 0 }
      writeIndent) :=
    (quiet_writeIndicator _ _ _ _).bind fun _ => Quiet.modBind (fun _ => rfl) fun _ => quiet_writeIndent
  refine (Quiet.whenE hq).ewp fun _ t ht => ?_
  unfold setStateE
  rw [ewp_bind, ewp_opE, ewp_modE]
  have k := ht.like
  have h0 : opened s.state = 0 ∧ inFlow s.state = 0 := by
    rcases hst with h | h <;> rw [h] <;> exact ⟨rfl, rfl⟩
  have hfst := hS.first h0.1 h0.2
  rw [hss] at hfst
  refine ⟨_, rfl, .ended ⟨?_, ?_, ?_⟩ rfl (k.states.trans hss), k.events, k.canonical, trivial⟩
  · show t.indents.length = ((EState.ended :: t.states).map opened).sum
    rw [k.indents, k.states, hss, hfst.1]; rfl
  · show t.flowLevel = (((EState.ended :: t.states).map inFlow).sum : Nat)
    rw [k.flowLevel, k.states, hss, hfst.2]; rfl
  · show ∀ x ∈ t.states, resting x
    rw [k.states, hss]; exact fun x hx => (List.not_mem_nil hx).elim

theorem ewp_documentStart (first : Bool) (hI : Inv s .docs) :
    ewp (emitDocumentStart e first) (fun _ u => StepOk s .docs e u) (StepErr s .docs e) s := by
  cases e with
  | documentStart v ts i => exact ewp_documentStartEvent hI
  | streamEnd => exact ewp_streamEndEvent hI
  | _ => exact ⟨⟨_, rfl⟩, ⟨rfl, rfl, rfl⟩, Or.inl rfl⟩

theorem ewp_streamStart (hI : Inv s .start) :
    ewp (emitStreamStart e) (fun _ u => StepOk s .start e u) (StepErr s .start e) s := by
  unfold emitStreamStart
  rw [ewp_bind, ewp_modE]
  cases hI with
  | start hS hst hss htags =>
  cases e with
  | streamStart enc =>
    dsimp only
    rw [ewp_bind, ewp_modE, ewp_bind, ewp_getE, ewp_bind]
    refine (Quiet.whenE quiet_writeBom).ewp fun _ t ht => ?_
    unfold setStateE
    rw [ewp_modE]
    have k := ht.like
    have hfst := hS.first (by rw [hst]; rfl) (by rw [hst]; rfl)
    rw [hss] at hfst
    refine ⟨_, rfl, .docs ⟨?_, ?_, ?_⟩ (Or.inl rfl) (k.states.trans hss) (k.tags.trans htags), k.events, k.canonical, trivial⟩
    · show t.indents.length = ((EState.firstDocumentStart :: t.states).map opened).sum
      rw [k.indents, k.states]
      show s.indents.length = ((EState.firstDocumentStart :: s.states).map opened).sum
      rw [hss, hfst.1]; rfl
    · show t.flowLevel = (((EState.firstDocumentStart :: t.states).map inFlow).sum : Nat)
      rw [k.flowLevel, k.states]
      show s.flowLevel = (((EState.firstDocumentStart :: s.states).map inFlow).sum : Nat)
      rw [hss, hfst.2]; rfl
    · show ∀ x ∈ t.states, resting x
      rw [k.states]
      show ∀ x ∈ s.states, resting x
      rw [hss]; exact fun x hx => (List.not_mem_nil hx).elim
  | _ => exact ⟨⟨_, rfl⟩, ⟨rfl, rfl, rfl⟩, Or.inl rfl⟩

theorem ewp_documentEnd {K : List Frame} (hI : Inv s (.doc (.docEnd :: K))) (hG : Cfg.Good (.doc (.docEnd :: K)))
    (h0 : s.state = .documentEnd) :
    ewp (emitDocumentEnd e) (fun _ u => StepOk s (.doc (.docEnd :: K)) e u) (StepErr s (.doc (.docEnd :: K)) e) s := by
  have hK : K = [] := by
    cases hG with
    | bottom _ => rfl
    | push _ h _ => exact absurd rfl h
  subst hK
  obtain ⟨f', K', he, _, hK⟩ := hI.parts
  injection he with _ he2
  subst he2
  have hss : s.states = [] := by simpa using hK
  have hfst := hI.stacks.first (by rw [h0]; rfl) (by rw [h0]; rfl)
  rw [hss] at hfst
  cases e with
  | documentEnd i =>
    unfold emitDocumentEnd
    dsimp only
    rw [ewp_bind]
    refine quiet_writeIndent.ewp fun _ t1 ht1 => ?_
    rw [ewp_bind]
    have hq : Quiet (if (!i) = true then do
        writeIndicator dots true false false
        modE fun s => { s with openEnded := 0 }
        writeIndent
      else modE fun s => { s with openEnded := if s.openEnded == 0 then 1 else s.openEnded }) :=
      Quiet.ite ((quiet_writeIndicator _ _ _ _).bind fun _ => Quiet.modBind (fun _ => rfl) fun _ => quiet_writeIndent)
        (Quiet.modE fun _ => rfl)
    refine hq.ewp fun _ t ht2 => ?_
    rw [ewp_bind, ewp_opE, ewp_modE]
    have k := (ht1.trans ht2).like
    refine ⟨_, rfl, .docs ⟨?_, ?_, ?_⟩ (Or.inr rfl) (k.states.trans hss) rfl, k.events, k.canonical, trivial⟩
    · show t.indents.length = ((EState.documentStart :: t.states).map opened).sum
      rw [k.indents, k.states, hss, hfst.1]; rfl
    · show t.flowLevel = (((EState.documentStart :: t.states).map inFlow).sum : Nat)
      rw [k.flowLevel, k.states, hss, hfst.2]; rfl
    · show ∀ x ∈ t.states, resting x
      rw [k.states, hss]; exact fun x hx => (List.not_mem_nil hx).elim
  | _ => exact ⟨⟨_, rfl⟩, ⟨rfl, rfl, rfl⟩, Or.inl rfl⟩

/-- **One event.** The state machine accepts an event exactly when the grammar does and its data are good. -/
theorem ewp_stateMachine {c : Cfg} (hI : Inv s c) (hG : c.Good) (hg : GoodProps s.canonical e) (hn : TagNoted s e) :
    ewp (emitterStep e) (fun _ t => StepOk s c e t) (StepErr s c e) s := by
  unfold emitterStep
  rw [ewp_bind, ewp_getE]
  cases hI with
  | start hS hst hss ht => rw [hst]; exact ewp_streamStart (.start hS hst hss ht)
  | docs hS hst hss ht =>
    rcases hst with hst | hst
    · rw [hst]; exact ewp_documentStart true (.docs hS (Or.inl hst) hss ht)
    · rw [hst]; exact ewp_documentStart false (.docs hS (Or.inr hst) hss ht)
  | ended hS hst hss =>
    rw [hst]
    exact ⟨⟨_, rfl⟩, ⟨rfl, rfl, rfl⟩, Or.inl (by cases e <;> rfl)⟩
  | doc hS hF =>
    have hI := Inv.doc hS hF
    obtain ⟨f, K, rfl, hf, hK⟩ := hI.parts
    cases hst : s.state with
    | streamStart => rw [hst] at hf; cases hf
    | firstDocumentStart => rw [hst] at hf; cases hf
    | documentStart => rw [hst] at hf; cases hf
    | ended => rw [hst] at hf; cases hf
    | documentContent =>
      rw [hst] at hf; injection hf with hf; subst hf
      exact ewp_documentContent hI hst hg hn
    | documentEnd =>
      rw [hst] at hf; injection hf with hf; subst hf
      exact ewp_documentEnd hI hG hst
    | flowSequenceFirstItem =>
      rw [hst] at hf; injection hf with hf; subst hf
      exact ewp_flowSequence true hI hG (by rw [hst]; rfl) (by rw [hst]; rfl) hg hn
    | flowSequenceItem =>
      rw [hst] at hf; injection hf with hf; subst hf
      exact ewp_flowSequence false hI hG (by rw [hst]; rfl) (by rw [hst]; rfl) hg hn
    | flowMappingFirstKey =>
      rw [hst] at hf; injection hf with hf; subst hf
      exact ewp_flowKey true hI hG (by rw [hst]; rfl) (by rw [hst]; rfl) hg hn
    | flowMappingKey =>
      rw [hst] at hf; injection hf with hf; subst hf
      exact ewp_flowKey false hI hG (by rw [hst]; rfl) (by rw [hst]; rfl) hg hn
    | flowMappingSimpleValue =>
      rw [hst] at hf; injection hf with hf; subst hf
      exact ewp_flowValue true hI (by rw [hst]; rfl) (by rw [hst]; rfl) hg hn
    | flowMappingValue =>
      rw [hst] at hf; injection hf with hf; subst hf
      exact ewp_flowValue false hI (by rw [hst]; rfl) (by rw [hst]; rfl) hg hn
    | blockSequenceFirstItem =>
      rw [hst] at hf; injection hf with hf; subst hf
      exact ewp_blockSequence true hI hG (by rw [hst]; rfl) (by rw [hst]; rfl) hg hn
    | blockSequenceItem =>
      rw [hst] at hf; injection hf with hf; subst hf
      exact ewp_blockSequence false hI hG (by rw [hst]; rfl) (by rw [hst]; rfl) hg hn
    | blockMappingFirstKey =>
      rw [hst] at hf; injection hf with hf; subst hf
      exact ewp_blockKey true hI hG (by rw [hst]; rfl) (by rw [hst]; rfl) hg hn
    | blockMappingKey =>
      rw [hst] at hf; injection hf with hf; subst hf
      exact ewp_blockKey false hI hG (by rw [hst]; rfl) (by rw [hst]; rfl) hg hn
    | blockMappingSimpleValue =>
      rw [hst] at hf; injection hf with hf; subst hf
      exact ewp_blockValue true hI (by rw [hst]; rfl) (by rw [hst]; rfl) hg hn
    | blockMappingValue =>
      rw [hst] at hf; injection hf with hf; subst hf
      exact ewp_blockValue false hI (by rw [hst]; rfl) (by rw [hst]; rfl) hg hn

end

end LibYaml
