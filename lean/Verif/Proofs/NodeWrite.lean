import Verif.Proofs.PropWrite
import Verif.Props.TagRoundTrip
import Verif.Props.BlockRoundTrip

/-!
# Nodes: what the analysis of an event notes, and what the leaves write
-/

namespace LibYaml

open Spec

/-! ### What stays -/

/-- The part of the emitter that does not depend on the event and the line. -/
structure Core where
  state : EState
  states : List EState
  indents : List Int
  indent : Int
  flowLevel : Int
  tags : List TagDir
  canonical : Bool
  unicode : Bool
  bestIndent : Int
  bestWidth : Int
  lineBreak : Option Break

def Emitter.core (s : Emitter) : Core :=
  ⟨s.state, s.states, s.indents, s.indent, s.flowLevel, s.tags, s.canonical, s.unicode, s.bestIndent, s.bestWidth, s.lineBreak⟩

theorem Kin.core {s t : Emitter} (h : Kin s t) : t.core = s.core := by
  unfold Kin at h
  rw [h]; rfl

/-- The emitter is inside a document with the directives `T`. -/
structure Ctx (T : List TagDir) (lb : Break) (c : Core) : Prop where
  line : c.lineBreak = some lb
  best : 2 ≤ c.bestIndent ∧ c.bestIndent ≤ 9
  tags : c.tags = knownTags T
  good : ∀ d ∈ T, Handle d.handle ∧ d.pfx ≠ []
  once : (T.map TagDir.handle).Nodup
  low : -1 ≤ c.indent
  level : 0 ≤ c.flowLevel
  inFlow : c.flowLevel ≠ 0 → 0 ≤ c.indent

theorem Ctx.emits {T : List TagDir} {lb : Break} {s : Emitter} (h : Ctx T lb s.core) : EmitsIn T s := ⟨h.tags, h.good, h.once⟩

/-- The column of the children of a flow node, and of the lines of a scalar. -/
theorem Ctx.deeper {T : List TagDir} {lb : Break} {s : Emitter} (h : Ctx T lb s.core) : s.indent + 1 < s.deeper true false + 1 ∧ 1 ≤ s.deeper true false := by
  have h1 : 2 ≤ s.bestIndent := h.best.1
  have h2 : -1 ≤ s.indent := h.low
  unfold Emitter.deeper
  split
  · simp only [if_true]; omega
  · simp only [Bool.not_false, if_true]; omega

/-! ### Events -/

/-- The tag can be written and read back. -/
def TagFit (T : List TagDir) (t : Option Text) : Prop :=
  ∀ x, t = some x → (∀ c ∈ x, Storable c ∧ c ≠ 0) ∧ ∀ d ∈ T ++ predeclared, ∀ r, x = d.pfx ++ r → ∀ c ∈ r, ¬ flowInd c

/-- No line begins with a blank. -/
def NoBlankLine (v : Text) : Prop := ∀ room, Narrow room true none v

/-- The event can be written and read back in a document with the directives `T`. -/
def EventFit (T : List TagDir) : EvData → Prop
  | .scalar _ t v _ _ st => TagFit T t ∧ (∀ c ∈ v, UScalar c) ∧ (st = .folded → NoBlankLine v)
  | .sequenceStart _ t _ _ => TagFit T t
  | .mappingStart _ t _ _ => TagFit T t
  | _ => True

/-- What the analysis notes. -/
def Noted (T : List TagDir) (s : Emitter) : EvData → Prop
  | .alias a => s.anchor = some a ∧ s.anchorIsAlias = true
  | .scalar a t v p q _ => PropNote T s a (if (s.canonical || (!p && !q)) = true then t else none) ∧
      ∃ st, s.scalar = { analyzeScalarData s.unicode v with style := st }
  | .sequenceStart a t i _ => PropNote T s a (if (s.canonical || !i) = true then t else none)
  | .mappingStart a t i _ => PropNote T s a (if (s.canonical || !i) = true then t else none)
  | _ => True

theorem tw_analyzeAnchor {s : Emitter} {a : Text} {b : Bool} (h : Name a) {Q : Unit → Text → Emitter → Prop} (hQ : Q () [] { s with anchor := some a, anchorIsAlias := b }) :
    tw (analyzeAnchor a b) Q s := by
  unfold analyzeAnchor
  have h1 : a.isEmpty = false := by
    cases a with
    | nil => exact absurd rfl h.1
    | cons _ _ => rfl
  have h2 : a.all isAlpha = true := by
    rw [List.all_eq_true]
    exact fun c hc => (isAlpha_iff c).mpr (h.2 c hc)
  rw [h1, h2]
  exact hQ

theorem tw_analyzeTag {T : List TagDir} {lb : Break} {s : Emitter} {t : Text} (hc : Ctx T lb s.core) (hne : t ≠ []) (hf : TagFit T (some t)) (h0 : s.tagHandle = none)
    {Q : Unit → Text → Emitter → Prop} (hQ : ∀ h x, TagNote T h x (some t) → Q () [] { s with tagHandle := h, tagSuffix := x }) : tw (analyzeTag t) Q s := by
  obtain ⟨ht, hx⟩ := hf t rfl
  have hd := hc.emits
  unfold analyzeTag
  rw [tw_ite, if_neg (by simpa using hne), tw_bind, tw_getE]
  cases hf : s.tags.find? fun d => d.fits t with
  | none =>
    simp only []
    rw [tw_modE]
    exact hQ s.tagHandle (some t) (by rw [h0]; exact .tag rfl hne ht (fun z hz => by cases hz) rfl)
  | some d =>
    simp only []
    rw [tw_modE]
    obtain ⟨e1, e2⟩ := fits_split (d := d) (t := t) (List.find?_some (p := fun d : TagDir => d.fits t) hf)
    have hm := List.mem_of_find?_eq_some hf
    have hh := known_handle hd hm
    refine hQ (some d.handle) _ (.tag rfl e2 (fun c hc => ht c (List.mem_of_mem_drop hc)) (fun y hy => ?_) ?_)
    · cases hy
      refine ⟨handleOk_iff.mp hh, hx d ?_ _ e1⟩
      rw [hd.known] at hm
      rcases List.mem_append.mp hm with hm | hm
      · exact List.mem_append_left _ hm
      · exact List.mem_append_right _ (List.mem_filter.mp hm).1
    · show expand T d.handle _ = _
      rw [expand_known hd.once (by rw [← hd.known]; exact hm), ← e1]
      obtain ⟨t, ht⟩ := (handleOk_iff.mp hh).head
      rw [ht]
      exact fun h => by cases h

theorem tw_analyzeProps {T : List TagDir} {lb : Break} {s : Emitter} {a t : Option Text} {b : Bool} (hc : Ctx T lb s.core) (ha : ∀ x, a = some x → Name x)
    (hb : b = true → t ≠ some []) (hf : TagFit T t) (h0 : s.anchor = none) (h1 : s.tagHandle = none) (h2 : s.tagSuffix = none) {Q : Unit → Text → Emitter → Prop}
    (hQ : ∀ A B H X, PropNote T { s with anchor := A, anchorIsAlias := B, tagHandle := H, tagSuffix := X } a (if b = true then t else none) →
      Q () [] { s with anchor := A, anchorIsAlias := B, tagHandle := H, tagSuffix := X }) : tw (analyzeProps a t b) Q s := by
  have hname : ∀ x, a = some x → x ≠ [] ∧ ∀ c ∈ x, isAlpha c = true := fun x hx => ⟨(ha x hx).1, fun c hc => (isAlpha_iff c).mpr ((ha x hx).2 c hc)⟩
  have step : ∀ B, (∀ x, a = some x → B = false) →
      tw (whenE b (someE t analyzeTag)) Q { s with anchor := a, anchorIsAlias := B } := by
    intro B hB
    rw [tw_whenE]
    have hn : (if b = true then t else none) = none → Q () [] { s with anchor := a, anchorIsAlias := B } := by
      intro e
      exact hQ a B s.tagHandle s.tagSuffix (by rw [e]; exact ⟨rfl, hname, hB, .none h1 h2⟩)
    cases b with
    | false => exact hn rfl
    | true =>
      rw [if_pos rfl]
      cases t with
      | none => exact hn rfl
      | some t =>
        refine tw_analyzeTag (s := { s with anchor := a, anchorIsAlias := B }) hc (fun e => hb rfl (by rw [e])) hf h1 fun h x hx => ?_
        exact hQ a B h x (by rw [if_pos rfl]; exact ⟨rfl, hname, hB, hx⟩)
  unfold analyzeProps
  rw [tw_bind]
  cases a with
  | none =>
    have := step s.anchorIsAlias (fun x hx => by cases hx)
    show tw (whenE b (someE t analyzeTag)) _ s
    have e : ({ s with anchor := none, anchorIsAlias := s.anchorIsAlias } : Emitter) = s := by rw [← h0]
    rw [e] at this
    exact this
  | some a =>
    exact tw_analyzeAnchor (ha a rfl) (step false (fun _ _ => rfl))

/-- The analysis of an event. -/
theorem tw_analyzeEvent {T : List TagDir} {lb : Break} {s : Emitter} {e : EvData} (hc : Ctx T lb s.core) (hg : GoodEvent s.canonical e) (hf : EventFit T e)
    {Q : Unit → Text → Emitter → Prop}
    (hQ : ∀ A B H X S, Noted T { s with anchor := A, anchorIsAlias := B, tagHandle := H, tagSuffix := X, scalar := S } e →
      Q () [] { s with anchor := A, anchorIsAlias := B, tagHandle := H, tagSuffix := X, scalar := S }) : tw (analyzeEvent e) Q s := by
  unfold analyzeEvent
  rw [tw_bind, tw_modE, tw_bind, tw_getE]
  have triv : Noted T { s with anchor := none, tagHandle := none, tagSuffix := none, scalar := { s.scalar with value := [] } } e →
      Q () [] { s with anchor := none, tagHandle := none, tagSuffix := none, scalar := { s.scalar with value := [] } } := fun h => hQ _ _ _ _ _ h
  cases e with
  | streamStart enc => exact triv trivial
  | streamEnd => exact triv trivial
  | documentStart v ts i => exact triv trivial
  | documentEnd i => exact triv trivial
  | sequenceEnd => exact triv trivial
  | mappingEnd => exact triv trivial
  | «alias» a => exact tw_analyzeAnchor hg (hQ _ _ _ _ _ ⟨rfl, rfl⟩)
  | scalar a t v p q st =>
    show tw (analyzeProps a t (s.canonical || (!p && !q)) >>= fun _ => analyzeScalar v) _ _
    rw [tw_bind]
    refine tw_analyzeProps (s := { s with anchor := none, tagHandle := none, tagSuffix := none, scalar := { s.scalar with value := [] } }) hc hg.1
      (fun h => hg.2.1 ((bool_cond _ _ _).mp h)) hf.1 rfl rfl rfl fun A B H X h => ?_
    exact hQ _ _ _ _ _ ⟨⟨h.1, h.2, h.3, h.4⟩, _, rfl⟩
  | sequenceStart a t i st =>
    refine tw_analyzeProps (s := { s with anchor := none, tagHandle := none, tagSuffix := none, scalar := { s.scalar with value := [] } }) hc hg.1
      (fun h => hg.2 ((bool_cond' _ _).mp h)) hf rfl rfl rfl fun A B H X h => ?_
    exact hQ _ _ _ _ _ h
  | mappingStart a t i st =>
    refine tw_analyzeProps (s := { s with anchor := none, tagHandle := none, tagSuffix := none, scalar := { s.scalar with value := [] } }) hc hg.1
      (fun h => hg.2 ((bool_cond' _ _).mp h)) hf rfl rfl rfl fun A B H X h => ?_
    exact hQ _ _ _ _ _ h

/-! ### The style of a scalar -/

/-- What the chosen style presupposes. -/
structure StyleOk (s : Emitter) (noTag p : Bool) (st st' : ScalarStyle) : Prop where
  real : st' ≠ .any
  plain : st' = .plain → (if s.flowLevel ≠ 0 then s.scalar.flowPlainAllowed else s.scalar.blockPlainAllowed) = true ∧
    (s.scalar.value = [] → s.flowLevel = 0 ∧ s.simpleKeyContext = false ∧ s.canonical = false) ∧ (noTag = true → p = true)
  single : st' = .single → s.scalar.singleQuotedAllowed = true
  block : st' = .literal ∨ st' = .folded → s.scalar.blockAllowed = true ∧ s.flowLevel = 0 ∧ s.simpleKeyContext = false
  folded : st' = .folded → st = .folded
  asked : st' = .plain → st = .any ∨ st = .plain

theorem style_ok (s : Emitter) (noTag p : Bool) (st : ScalarStyle) : StyleOk s noTag p st (s.quotedRules (s.plainRules noTag p st)) := by
  have key : ∀ x : ScalarStyle, x ≠ .any → (x = .folded → st = .folded) → (x = .plain → st = .any ∨ st = .plain) →
      (x = .plain → (if s.flowLevel ≠ 0 then s.scalar.flowPlainAllowed else s.scalar.blockPlainAllowed) = true ∧
        (s.scalar.value = [] → s.flowLevel = 0 ∧ s.simpleKeyContext = false ∧ s.canonical = false) ∧ (noTag = true → p = true)) → StyleOk s noTag p st (s.quotedRules x) := by
    intro x h1 h2 h4 h3
    unfold Emitter.quotedRules
    simp only []
    by_cases c1 : x = .single ∧ s.scalar.singleQuotedAllowed = false
    · rw [if_pos c1]
      rw [if_neg (by rintro ⟨h | h, _⟩ <;> cases h)]
      exact ⟨(by decide), (fun h => by cases h), (fun h => by cases h), (fun h => by rcases h with h | h <;> cases h), (fun h => by cases h), (fun h => by cases h)⟩
    · rw [if_neg c1]
      split
      · exact ⟨(by decide), (fun h => by cases h), (fun h => by cases h), (fun h => by rcases h with h | h <;> cases h), (fun h => by cases h), (fun h => by cases h)⟩
      · rename_i c2
        refine ⟨h1, h3, fun h => ?_, fun h => ?_, h2, h4⟩
        · cases hq : s.scalar.singleQuotedAllowed with
          | true => rfl
          | false => exact absurd ⟨h, hq⟩ c1
        · have c3 : ¬ (s.scalar.blockAllowed = false ∨ s.flowLevel ≠ 0 ∨ s.simpleKeyContext = true) := fun h' => c2 ⟨h, h'⟩
          refine ⟨?_, ?_, ?_⟩
          · cases hq : s.scalar.blockAllowed with
            | true => rfl
            | false => exact absurd (.inl hq) c3
          · by_cases hz : s.flowLevel = 0
            · exact hz
            · exact absurd (.inr (.inl hz)) c3
          · cases hq : s.simpleKeyContext with
            | false => rfl
            | true => exact absurd (.inr (.inr hq)) c3
  unfold Emitter.plainRules
  simp only []
  generalize hx : (if st = .any then ScalarStyle.plain else st) = x
  have hx1 : x ≠ .any := by
    rw [← hx]
    split
    · decide
    · assumption
  have hx2 : x = .folded → st = .folded := by
    rw [← hx]
    split
    · intro h; cases h
    · exact id
  have hx4 : x = .plain → st = .any ∨ st = .plain := by
    rw [← hx]
    split
    · intro _; exact .inl (by assumption)
    · exact .inr
  generalize hy : (if s.canonical = true then ScalarStyle.double else x) = y
  have hy1 : y ≠ .any := by
    rw [← hy]
    split
    · decide
    · assumption
  have hy2 : y = .folded → st = .folded := by
    rw [← hy]
    split
    · intro h; cases h
    · exact hx2
  have hy3 : y = .plain → s.canonical = false := by
    rw [← hy]
    cases s.canonical
    · intro _; rfl
    · intro h; cases h
  have hy4 : y = .plain → st = .any ∨ st = .plain := by
    rw [← hy]
    split
    · intro h; cases h
    · exact hx4
  generalize hz : (if (s.simpleKeyContext && s.scalar.multiline) = true then ScalarStyle.double else y) = z
  have hz1 : z ≠ .any := by
    rw [← hz]
    split
    · decide
    · assumption
  have hz2 : z = .folded → st = .folded := by
    rw [← hz]
    split
    · intro h; cases h
    · exact hy2
  have hz3 : z = .plain → s.canonical = false := by
    rw [← hz]
    split
    · intro h; cases h
    · exact hy3
  have hz4 : z = .plain → st = .any ∨ st = .plain := by
    rw [← hz]
    split
    · intro h; cases h
    · exact hy4
  split
  · exact key _ (by decide) (by intro h; cases h) (by intro h; cases h) (by intro h; cases h)
  · rename_i hc
    refine key _ hz1 hz2 hz4 fun hp => ?_
    have hc' : ¬ ((s.flowLevel ≠ 0 ∧ s.scalar.flowPlainAllowed = false) ∨ (s.flowLevel = 0 ∧ s.scalar.blockPlainAllowed = false)
        ∨ (s.scalar.value = [] ∧ (s.flowLevel ≠ 0 ∨ s.simpleKeyContext = true)) ∨ (noTag = true ∧ p = false)) := fun h => hc ⟨hp, h⟩
    refine ⟨?_, fun hv => ⟨?_, ?_, hz3 hp⟩, fun hn => ?_⟩
    · by_cases hf : s.flowLevel ≠ 0
      · rw [if_pos hf]
        cases hq : s.scalar.flowPlainAllowed with
        | true => rfl
        | false => exact absurd (.inl ⟨hf, hq⟩) hc'
      · rw [if_neg hf]
        cases hq : s.scalar.blockPlainAllowed with
        | true => rfl
        | false => exact absurd (.inr (.inl ⟨by omega, hq⟩)) hc'
    · by_cases hf : s.flowLevel = 0
      · exact hf
      · exact absurd (.inr (.inr (.inl ⟨hv, .inl hf⟩))) hc'
    · cases hq : s.simpleKeyContext with
      | false => rfl
      | true => exact absurd (.inr (.inr (.inl ⟨hv, .inr hq⟩))) hc'
    · cases hq : p with
      | true => rfl
      | false => exact absurd (.inr (.inr (.inr ⟨hn, hq⟩))) hc'

/-- The tag that is written. -/
def TagRel (t t' : Option Text) (p q : Bool) (st' : ScalarStyle) : Prop :=
  (t' = t ∧ t ≠ none) ∨ (t' = none ∧ st' = .plain ∧ p = true) ∨ (t' = none ∧ st' ≠ .plain ∧ q = true) ∨ (t' = some [33] ∧ st' ≠ .plain ∧ p = true)

theorem TagNote.isNone {T : List TagDir} {h x t : Option Text} (hn : TagNote T h x t) : (h.isNone && x.isNone) = t.isNone := by
  cases hn with
  | none h1 h2 => rw [h1, h2]; rfl
  | bang h1 h2 => rw [h1, h2]; rfl
  | tag h1 _ _ _ _ => rw [h1]; cases h <;> rfl

theorem tw_selectScalarStyle {T : List TagDir} {s : Emitter} {a t : Option Text} {v : Text} {p q : Bool} {st : ScalarStyle} {c : Bool}
    (hg : GoodEvent c (.scalar a t v p q st)) (hn : PropNote T s a (if (c || (!p && !q)) = true then t else none)) {Q : Unit → Text → Emitter → Prop}
    (hQ : ∀ H st' t', PropNote T { s with tagHandle := H, scalar := { s.scalar with style := st' } } a t' → StyleOk s (if (c || (!p && !q)) = true then t else none).isNone p st st' →
      TagRel t t' p q st' → optLen H ≤ 1 + optLen s.tagHandle →
      Q () [] { s with tagHandle := H, scalar := { s.scalar with style := st' } }) : tw (selectScalarStyle p q st) Q s := by
  unfold selectScalarStyle
  rw [tw_bind, tw_getE]
  dsimp only
  rw [hn.tag.isNone]
  have hpq : t = none → p = true ∨ q = true := hg.2.2
  generalize hte : (if (c || (!p && !q)) = true then t else none) = te at hn hQ ⊢
  have hte2 : te = none → p = true ∨ q = true := by
    intro h
    by_cases hb : (c || (!p && !q)) = true
    · rw [if_pos hb] at hte
      exact hpq (hte.trans h)
    · cases p <;> cases q <;> simp_all
  rw [tw_ite, if_neg (by
    intro h
    simp only [Bool.and_eq_true, Bool.not_eq_true', Option.isNone_iff_eq_none] at h
    obtain ⟨⟨h1, h2⟩, h3⟩ := h
    rcases hte2 h1 with h | h
    · rw [h] at h2; cases h2
    · rw [h] at h3; cases h3), tw_modE]
  have hok := style_ok s te.isNone p st
  generalize s.quotedRules (s.plainRules te.isNone p st) = st' at hok ⊢
  by_cases hc : (te.isNone && !q && st' != .plain) = true
  · rw [if_pos hc]
    simp only [Bool.and_eq_true, Bool.not_eq_true', Option.isNone_iff_eq_none, bne_iff_ne, ne_eq] at hc
    obtain ⟨⟨h1, h2⟩, h3⟩ := hc
    subst h1
    have hp : p = true := by
      rcases hte2 rfl with h | h
      · exact h
      · rw [h] at h2; cases h2
    obtain ⟨k1, k2⟩ : s.tagHandle = none ∧ s.tagSuffix = none := by
      cases hn.tag with
      | none h1 h2 => exact ⟨h1, h2⟩
    refine hQ _ _ (some [33]) ⟨hn.anchor, hn.name, hn.real, .bang rfl k2⟩ hok (.inr (.inr (.inr ⟨rfl, h3, hp⟩))) ?_
    rw [k1]; decide
  · rw [if_neg hc]
    refine hQ s.tagHandle st' te ⟨hn.anchor, hn.name, hn.real, hn.tag⟩ hok ?_ (by omega)
    cases te with
    | some x =>
      refine .inl ?_
      split at hte
      · exact ⟨hte.symm, by rw [hte]; simp⟩
      · cases hte
    | none =>
      by_cases h3 : st' = .plain
      · exact .inr (.inl ⟨rfl, h3, (hok.plain h3).2.2 rfl⟩)
      · refine .inr (.inr (.inl ⟨rfl, h3, ?_⟩))
        cases q with
        | true => rfl
        | false => exact absurd (by simpa using h3) hc

end LibYaml
