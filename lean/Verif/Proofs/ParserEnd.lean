import Verif.Proofs.ParserTags

/-! `stream_end_produced` is set exactly by the event STREAM-END. -/

namespace LibYaml

open Spec

variable {σ : Type}

/-- In the middle of a call. -/
structure Going (s : PS σ) : Prop where
  ended : s.ended = false
  stk : ∀ st ∈ s.states, st.isFirst = false

/-- Tokens that open a collection. -/
def TokData.isOpener : TokData → Bool
  | .blockSequenceStart | .blockMappingStart | .flowSequenceStart | .flowMappingStart => true
  | _ => false

/-- Between two calls. -/
structure EInv (s : PS σ) : Prop extends Going s where
  first : s.state.isFirst = true → ∃ t, s.avail = some t ∧ t.data.isOpener = true

/-- After a call. -/
def EPost (e : Event) (s : PS σ) : Prop :=
  (e.data = .streamEnd → s.ended = true ∧ s.state = .done) ∧ (e.data ≠ .streamEnd → EInv s)

section rules
variable {S : TokSrc σ} {s : PS σ}

theorem en_peek {Q : Token → PS σ → Prop} (hg : Going s) (h : ∀ t s', Going s' → s'.avail = some t → Q t s') :
    wp (peek S) Q Any s := by
  unfold wp peek
  cases ha : s.avail with
  | some t => exact h t s hg ha
  | none =>
    simp only
    cases hn : S.next s.src with
    | error e => trivial
    | ok p => exact h _ _ ⟨hg.ended, hg.stk⟩ rfl

theorem en_skip {Q : Unit → PS σ → Prop} {t : Token} (hg : Going s) (ha : s.avail = some t) (ht : t.data ≠ .streamEnd)
    (h : ∀ s', Going s' → Q () s') : wp skipTok Q Any s := by
  unfold wp skipTok; rw [ha]
  exact h _ ⟨by simp [ht], hg.stk⟩

theorem en_pop {Q : Unit → PS σ → Prop} (hg : Going s)
    (h : ∀ s', Going s' → s'.avail = s.avail → s'.state.isFirst = false → Q () s') : wp popState Q Any s := by
  unfold wp popState
  cases hs : s.states with
  | nil => trivial
  | cons st K =>
    have hk := hg.stk
    rw [hs] at hk
    exact h _ ⟨hg.ended, fun x hx => hk x (.tail _ hx)⟩ rfl (hk st (.head _))

theorem en_set {Q : Unit → PS σ → Prop} (st : PState) (hg : Going s)
    (h : ∀ s', Going s' → s'.avail = s.avail → s'.state = st → Q () s') : wp (setState st) Q Any s :=
  h _ ⟨hg.ended, hg.stk⟩ rfl rfl

theorem en_push {Q : Unit → PS σ → Prop} {st : PState} (hg : Going s) (hst : st.isFirst = false)
    (h : ∀ s', Going s' → s'.avail = s.avail → Q () s') : wp (pushState st) Q Any s :=
  h _ ⟨hg.ended, fun x hx => by
    simp only [List.mem_cons] at hx
    rcases hx with rfl | hx
    · exact hst
    · exact hg.stk x hx⟩ rfl

theorem en_popMark {Q : Mark → PS σ → Prop} (hg : Going s)
    (h : ∀ m s', Going s' → s'.avail = s.avail → s'.state = s.state → Q m s') : wp popMark Q Any s := by
  unfold wp popMark
  cases s.marks with
  | nil => trivial
  | cons m ms => exact h m _ ⟨hg.ended, hg.stk⟩ rfl rfl

theorem en_setTags {Q : Unit → PS σ → Prop} {ts : List TagDir} (hg : Going s)
    (h : ∀ s', Going s' → s'.avail = s.avail → Q () s') : wp (setTags ts) Q Any s := h _ ⟨hg.ended, hg.stk⟩ rfl

theorem en_appendTag {Q : Unit → PS σ → Prop} {v : TagDir} {b : Bool} {m : Mark} (hg : Going s)
    (h : ∀ s', Going s' → s'.avail = s.avail → Q () s') : wp (appendTagM v b m) Q Any s :=
  wp_appendTagM (fun _ => trivial) fun ts => h { s with tags := ts } ⟨hg.ended, hg.stk⟩ rfl

theorem en_fail {α : Type} {Q : α → PS σ → Prop} {e : Fail} : wp (pfail e : PM σ α) Q Any s := trivial

/-- The end of a call with an ordinary event. -/
theorem en_event {e : Event} (hg : Going s) (he : e.data ≠ .streamEnd)
    (hf : s.state.isFirst = true → ∃ t, s.avail = some t ∧ t.data.isOpener = true) : wp (pure e : PM σ Event) EPost Any s :=
  ⟨fun h => absurd h he, fun _ => ⟨hg, hf⟩⟩

theorem en_empty {m : Mark} (hg : Going s) (hf : s.state.isFirst = false) : wp (emptyScalar m : PM σ Event) EPost Any s :=
  en_event hg (by simp) (by simp [hf])

end rules

variable {S : TokSrc σ} {s : PS σ} {n : Int}

theorem en_nodeContent {block indentless : Bool} {p : Props} {tag : Option Text} {t : Token} (hg : Going s)
    (ha : s.avail = some t) : wp (nodeContent S n block indentless p tag t) EPost Any s := by
  have open_ : ∀ (st : PState) (e : Event), t.data.isOpener = true → e.data ≠ .streamEnd →
      wp (do checkLevel S n p.start t.start; setState st; pure e : PM σ Event) EPost Any s := by
    intro st e h1 h2
    rw [wp_bind]
    apply wp_checkLevel (fun _ _ _ _ => trivial)
    rw [wp_bind]
    refine en_set _ hg fun s1 g1 a1 e1 => ?_
    exact en_event g1 h2 fun _ => ⟨t, by rw [a1, ha], h1⟩
  unfold nodeContent
  by_cases h1 : (indentless && t.data == .blockEntry) = true
  · simp only [h1, if_true]
    rw [wp_bind]
    refine en_set _ hg fun s1 g1 a1 e1 => ?_
    exact en_event g1 (by simp) (by rw [e1]; intro h; cases h)
  · simp only [h1]
    simp only [Bool.false_eq_true, if_false]
    split
    next hd =>
      rw [wp_bind]
      refine en_pop hg fun s1 g1 a1 e1 => ?_
      rw [wp_bind]
      unfold wp skipTok
      rw [a1, ha]
      refine en_event ⟨?_, g1.stk⟩ (by simp) (by simp [e1])
      simp [hd]
    next hd => exact open_ _ _ (by rw [hd]; rfl) (by simp)
    next hd => exact open_ _ _ (by rw [hd]; rfl) (by simp)
    · split
      next hd =>
        simp only [Bool.and_eq_true, beq_iff_eq] at hd
        exact open_ _ _ (by rw [hd.2]; rfl) (by simp)
      · split
        next hd =>
          simp only [Bool.and_eq_true, beq_iff_eq] at hd
          exact open_ _ _ (by rw [hd.2]; rfl) (by simp)
        · split
          · rw [wp_bind]
            refine en_pop hg fun s1 g1 a1 e1 => ?_
            exact en_event g1 (by simp) (by simp [e1])
          · exact trivial

theorem en_parseProps {t : Token} {Q : Props × Token → PS σ → Prop} (hg : Going s) (ha : s.avail = some t)
    (h : ∀ p t' s', Going s' → s'.avail = some t' → Q (p, t') s') : wp (parseProps S t) Q Any s := by
  unfold parseProps
  split
  next hd =>
    rw [wp_bind]
    refine en_skip hg ha (by rw [hd]; simp) fun s1 g1 => ?_
    rw [wp_bind]
    refine en_peek g1 fun t2 s2 g2 a2 => ?_
    split
    next hd2 =>
      rw [wp_bind]
      refine en_skip g2 a2 (by rw [hd2]; simp) fun s1 g1 => ?_
      rw [wp_bind]
      refine en_peek g1 fun t2 s2 g2 a2 => ?_
      exact h _ _ _ g2 a2
    · exact h _ _ _ g2 a2
  next hd =>
    rw [wp_bind]
    refine en_skip hg ha (by rw [hd]; simp) fun s1 g1 => ?_
    rw [wp_bind]
    refine en_peek g1 fun t2 s2 g2 a2 => ?_
    split
    next hd2 =>
      rw [wp_bind]
      refine en_skip g2 a2 (by rw [hd2]; simp) fun s1 g1 => ?_
      rw [wp_bind]
      refine en_peek g1 fun t2 s2 g2 a2 => ?_
      exact h _ _ _ g2 a2
    · exact h _ _ _ g2 a2
  · exact h _ _ _ hg ha

theorem en_parseNode {block indentless : Bool} (hg : Going s) : wp (parseNode S n block indentless) EPost Any s := by
  unfold parseNode
  rw [wp_bind]
  refine en_peek hg fun t s1 g1 a1 => ?_
  split
  next hd =>
    rw [wp_bind]
    refine en_pop g1 fun s2 g2 a2 e2 => ?_
    rw [wp_bind]
    unfold wp skipTok
    rw [a2, a1]
    refine en_event ⟨?_, g2.stk⟩ (by simp) (by simp [e2])
    simp [hd]
  · rw [wp_bind]
    refine en_parseProps g1 a1 fun p t' s2 g2 a2 => ?_
    simp only
    rw [wp_bind]
    apply wp_resolveTagM (fun _ _ _ _ => trivial)
    intro tag
    exact en_nodeContent g2 a2

theorem en_directivesLoop (fuel : Nat) (v : Option Version) (ts : List TagDir) {Q : Option Version × List TagDir → PS σ → Prop}
    (hg : Going s) (h : ∀ r s', Going s' → Q r s') : wp (directivesLoop S fuel v ts) Q Any s := by
  induction fuel generalizing s v ts with
  | zero => trivial
  | succ fuel ih =>
    unfold directivesLoop
    rw [wp_bind]
    refine en_peek hg fun t s1 g1 a1 => ?_
    split
    next hd =>
      split
      · trivial
      · split
        · trivial
        · rw [wp_bind]
          exact en_skip g1 a1 (by rw [hd]; simp) fun s2 g2 => ih _ _ g2
    next hd =>
      rw [wp_bind]
      refine en_appendTag g1 fun s2 g2 a2 => ?_
      rw [wp_bind]
      exact en_skip g2 (a2.trans a1) (by rw [hd]; simp) fun s2 g2 => ih _ _ g2
    · exact h _ _ g1

theorem en_processDirectives (fuel : Nat) {Q : Option Version × List TagDir → PS σ → Prop}
    (hg : Going s) (h : ∀ r s', Going s' → Q r s') : wp (processDirectives S fuel) Q Any s := by
  unfold processDirectives
  rw [wp_bind]
  refine en_directivesLoop fuel none [] hg fun r s1 g1 => ?_
  rw [wp_bind]
  refine en_peek g1 fun t s2 g2 a2 => ?_
  rw [wp_bind]
  refine en_appendTag g2 fun s3 g3 a3 => ?_
  rw [wp_bind]
  refine en_appendTag g3 fun s4 g4 a4 => ?_
  exact h _ _ g4

theorem en_skipDocumentEnds (fuel : Nat) {Q : Unit → PS σ → Prop} (hg : Going s) (h : ∀ s', Going s' → Q () s') :
    wp (skipDocumentEnds S fuel) Q Any s := by
  induction fuel generalizing s with
  | zero => trivial
  | succ fuel ih =>
    unfold skipDocumentEnds
    rw [wp_bind]
    refine en_peek hg fun t s1 g1 a1 => ?_
    split
    next hd =>
      rw [wp_bind]
      exact en_skip g1 a1 (by rw [hd]; simp) fun s2 g2 => ih g2
    · exact h _ g1

theorem en_parseDocumentStart (fuel : Nat) (implicit : Bool) (hg : Going s) :
    wp (parseDocumentStart S fuel implicit) EPost Any s := by
  have main : ∀ s : PS σ, Going s → wp (do
      let token ← peek S
      if implicit && !token.data.startsDocument then
        let _ ← processDirectives S fuel
        pushState .documentEnd
        setState .blockNode
        pure { data := .documentStart none [] true, start := token.start, stop := token.start }
      else if token.data ≠ .streamEnd then
        let start := token.start
        let (version, tags) ← processDirectives S fuel
        let token ← peek S
        if token.data = .documentStart then
          pushState .documentEnd
          setState .documentContent
          skipTok
          pure { data := .documentStart version tags false, start := start, stop := token.stop }
        else perr "did not find expected <document start>" token.start
      else
        setState .done
        skipTok
        pure { data := .streamEnd, start := token.start, stop := token.stop } : PM σ Event) EPost Any s := by
    intro s hg
    rw [wp_bind]
    refine en_peek hg fun t s1 g1 a1 => ?_
    split
    · rw [wp_bind]
      refine en_processDirectives fuel g1 fun r s2 g2 => ?_
      rw [wp_bind]
      refine en_push g2 rfl fun s3 g3 a3 => ?_
      rw [wp_bind]
      refine en_set _ g3 fun s4 g4 a4 e4 => ?_
      exact en_event g4 (by simp) (by rw [e4]; intro h; cases h)
    · split
      · rw [wp_bind]
        refine en_processDirectives fuel g1 fun r s2 g2 => ?_
        obtain ⟨v, ts⟩ := r
        simp only
        rw [wp_bind]
        refine en_peek g2 fun t2 s3 g3 a3 => ?_
        split
        next hd =>
          rw [wp_bind]
          refine en_push g3 rfl fun s4 g4 a4 => ?_
          rw [wp_bind]
          refine en_set _ g4 fun s5 g5 a5 e5 => ?_
          rw [wp_bind]
          unfold wp skipTok
          rw [a5, a4, a3]
          refine en_event ⟨?_, g5.stk⟩ (by simp) (by simp only; rw [e5]; intro h; cases h)
          simp [hd]
        · trivial
      next hd =>
        rw [wp_bind]
        refine en_set _ g1 fun s5 g5 a5 e5 => ?_
        rw [wp_bind]
        unfold wp skipTok
        rw [a5, a1]
        refine ⟨fun _ => ⟨?_, by simp only; exact e5⟩, by simp⟩
        simpa using hd
  unfold parseDocumentStart
  cases implicit with
  | true => exact main s hg
  | false =>
    simp only [Bool.not_false, if_true]
    rw [wp_bind]
    exact en_skipDocumentEnds fuel hg fun s' g => main s' g

theorem en_enter {first : Bool} {Q : Unit → PS σ → Prop} (hg : Going s)
    (hf : first = true → ∃ t, s.avail = some t ∧ t.data ≠ .streamEnd) (h : ∀ s', Going s' → Q () s') :
    wp (enterCollection S first) Q Any s := by
  unfold enterCollection
  cases first
  · exact h s hg
  · obtain ⟨t, ha, ht⟩ := hf rfl
    simp only [if_true]
    rw [wp_bind]
    refine wp_peekUnchecked (by rw [ha]; rfl) fun t' ht' => ?_
    rw [wp_bind, wp_pushMark]
    exact en_skip (t := t) ⟨hg.ended, hg.stk⟩ (by exact ha) ht h

theorem en_endFlow {d : EvData} {t : Token} (hg : Going s) (ha : s.avail = some t) (ht : t.data ≠ .streamEnd) (hd : d ≠ .streamEnd) :
    wp (endFlow d t) EPost Any s := by
  unfold endFlow
  rw [wp_bind]
  refine en_pop hg fun s1 g1 a1 e1 => ?_
  rw [wp_bind]
  refine en_popMark g1 fun m s2 g2 a2 e2 => ?_
  rw [wp_bind]
  unfold wp skipTok
  rw [a2, a1, ha]
  refine en_event ⟨?_, g2.stk⟩ (by exact hd) (by simp [e2, e1])
  simp [ht]

theorem en_separator {first : Bool} {t : Token} {a b : String} {Q : Token → PS σ → Prop} (hg : Going s) (ha : s.avail = some t)
    (h : ∀ t' s', Going s' → s'.avail = some t' → Q t' s') : wp (flowSeparator S first t a b) Q Any s := by
  unfold flowSeparator
  cases first
  · simp only [Bool.false_eq_true, if_false]
    split
    next hd =>
      rw [wp_bind]
      refine en_skip hg ha (by rw [hd]; simp) fun s1 g1 => ?_
      exact en_peek g1 h
    · rw [wp_bind]
      exact en_popMark hg fun m s1 g1 a1 e1 => trivial
  · exact h _ _ hg ha

/-- Steps shared by the collection states. -/
macro "en_set_empty" : tactic => `(tactic|
  (rw [wp_bind]; refine en_set _ (by assumption) fun s5 g5 a5 e5 => ?_; exact en_empty g5 (by rw [e5]; rfl)))
macro "en_push_node" : tactic => `(tactic|
  (rw [wp_bind]; refine en_push (by assumption) rfl fun s5 g5 a5 => ?_; exact en_parseNode g5))

theorem en_blockSeq {first : Bool} (hg : Going s) (hf : first = true → ∃ t, s.avail = some t ∧ t.data ≠ .streamEnd) :
    wp (parseBlockSequenceEntry S n first) EPost Any s := by
  unfold parseBlockSequenceEntry
  rw [wp_bind]
  refine en_enter hg hf fun s1 g1 => ?_
  rw [wp_bind]
  refine en_peek g1 fun t s2 g2 a2 => ?_
  split
  next hd =>
    rw [wp_bind]
    refine en_skip g2 a2 (by rw [hd]; simp) fun s3 g3 => ?_
    rw [wp_bind]
    refine en_peek g3 fun t2 s4 g4 a4 => ?_
    split
    · en_push_node
    · en_set_empty
  next hd => exact en_endFlow (d := .sequenceEnd) g2 a2 (by rw [hd]; simp) (by simp)
  · rw [wp_bind]
    exact en_popMark g2 fun m s1 g1 a1 e1 => trivial

theorem en_indentless (hg : Going s) : wp (parseIndentlessSequenceEntry S n) EPost Any s := by
  unfold parseIndentlessSequenceEntry
  rw [wp_bind]
  refine en_peek hg fun t s2 g2 a2 => ?_
  split
  next hd =>
    rw [wp_bind]
    refine en_skip g2 a2 (by rw [hd]; simp) fun s3 g3 => ?_
    rw [wp_bind]
    refine en_peek g3 fun t2 s4 g4 a4 => ?_
    split
    · en_push_node
    · en_set_empty
  · rw [wp_bind]
    refine en_pop g2 fun s3 g3 a3 e3 => ?_
    exact en_event g3 (by simp) (by simp [e3])

theorem en_blockMapKey {first : Bool} (hg : Going s) (hf : first = true → ∃ t, s.avail = some t ∧ t.data ≠ .streamEnd) :
    wp (parseBlockMappingKey S n first) EPost Any s := by
  unfold parseBlockMappingKey
  rw [wp_bind]
  refine en_enter hg hf fun s1 g1 => ?_
  rw [wp_bind]
  refine en_peek g1 fun t s2 g2 a2 => ?_
  split
  next hd =>
    rw [wp_bind]
    refine en_skip g2 a2 (by rw [hd]; simp) fun s3 g3 => ?_
    rw [wp_bind]
    refine en_peek g3 fun t2 s4 g4 a4 => ?_
    split
    · en_push_node
    · en_set_empty
  next hd => exact en_endFlow (d := .mappingEnd) g2 a2 (by rw [hd]; simp) (by simp)
  · rw [wp_bind]
    exact en_popMark g2 fun m s1 g1 a1 e1 => trivial

theorem en_blockMapValue (hg : Going s) : wp (parseBlockMappingValue S n) EPost Any s := by
  unfold parseBlockMappingValue
  rw [wp_bind]
  refine en_peek hg fun t s2 g2 a2 => ?_
  split
  next hd =>
    rw [wp_bind]
    refine en_skip g2 a2 (by rw [hd]; simp) fun s3 g3 => ?_
    rw [wp_bind]
    refine en_peek g3 fun t2 s4 g4 a4 => ?_
    split
    · en_push_node
    · en_set_empty
  · en_set_empty

theorem en_flowSeq {first : Bool} (hg : Going s) (hf : first = true → ∃ t, s.avail = some t ∧ t.data ≠ .streamEnd) :
    wp (parseFlowSequenceEntry S n first) EPost Any s := by
  unfold parseFlowSequenceEntry
  rw [wp_bind]
  refine en_enter hg hf fun s1 g1 => ?_
  rw [wp_bind]
  refine en_peek g1 fun t s2 g2 a2 => ?_
  split
  · rw [wp_bind]
    refine en_separator g2 a2 fun t2 s3 g3 a3 => ?_
    split
    next hd =>
      rw [wp_bind]
      refine en_set _ g3 fun s4 g4 a4 e4 => ?_
      rw [wp_bind]
      unfold wp skipTok
      rw [a4, a3]
      refine en_event ⟨?_, g4.stk⟩ (by simp) (by simp only; rw [e4]; intro h; cases h)
      simp [hd]
    · split
      · en_push_node
      next hd => exact en_endFlow g3 a3 (by rw [Decidable.not_not.mp hd]; simp) (by simp)
  next hd => exact en_endFlow g2 a2 (by rw [Decidable.not_not.mp hd]; simp) (by simp)

theorem en_flowSeqKey (hg : Going s) : wp (parseFlowSequenceEntryMappingKey S n) EPost Any s := by
  unfold parseFlowSequenceEntryMappingKey
  rw [wp_bind]
  refine en_peek hg fun t s2 g2 a2 => ?_
  split
  · en_push_node
  · split
    · en_set_empty
    next h1 h2 =>
      rw [wp_bind]
      refine en_skip g2 a2 (by rintro h; rw [h] at h1; simp at h1) fun s3 g3 => ?_
      en_set_empty

theorem en_flowSeqValue (hg : Going s) : wp (parseFlowSequenceEntryMappingValue S n) EPost Any s := by
  unfold parseFlowSequenceEntryMappingValue
  rw [wp_bind]
  refine en_peek hg fun t s2 g2 a2 => ?_
  split
  next hd =>
    rw [wp_bind]
    refine en_skip g2 a2 (by rw [hd]; simp) fun s3 g3 => ?_
    rw [wp_bind]
    refine en_peek g3 fun t2 s4 g4 a4 => ?_
    split
    · en_push_node
    · en_set_empty
  · en_set_empty

theorem en_flowMapKey {first : Bool} (hg : Going s) (hf : first = true → ∃ t, s.avail = some t ∧ t.data ≠ .streamEnd) :
    wp (parseFlowMappingKey S n first) EPost Any s := by
  unfold parseFlowMappingKey
  rw [wp_bind]
  refine en_enter hg hf fun s1 g1 => ?_
  rw [wp_bind]
  refine en_peek g1 fun t s2 g2 a2 => ?_
  split
  · rw [wp_bind]
    refine en_separator g2 a2 fun t2 s3 g3 a3 => ?_
    split
    next hd =>
      rw [wp_bind]
      refine en_skip g3 a3 (by rw [hd]; simp) fun s3 g3 => ?_
      rw [wp_bind]
      refine en_peek g3 fun t2 s4 g4 a4 => ?_
      split
      · en_push_node
      · en_set_empty
    · split
      · en_push_node
      next hd => exact en_endFlow g3 a3 (by rw [Decidable.not_not.mp hd]; simp) (by simp)
  next hd => exact en_endFlow g2 a2 (by rw [Decidable.not_not.mp hd]; simp) (by simp)

theorem en_flowMapValue {empty : Bool} (hg : Going s) : wp (parseFlowMappingValue S n empty) EPost Any s := by
  unfold parseFlowMappingValue
  rw [wp_bind]
  refine en_peek hg fun t s2 g2 a2 => ?_
  cases empty
  · simp only [Bool.false_eq_true, if_false]
    split
    next hd =>
      rw [wp_bind]
      refine en_skip g2 a2 (by rw [hd]; simp) fun s3 g3 => ?_
      rw [wp_bind]
      refine en_peek g3 fun t2 s4 g4 a4 => ?_
      split
      · en_push_node
      · en_set_empty
    · en_set_empty
  · simp only [if_true]
    en_set_empty

/-- A call either ends the stream or keeps `stream_end_produced` unset. -/
theorem en_stateMachine (fuel : Nat) (h : EInv s) : wp (stateMachine S n fuel) EPost Any s := by
  have hg := h.toGoing
  have hf : s.state.isFirst = true → ∃ t, s.avail = some t ∧ t.data ≠ .streamEnd := fun hx => by
    obtain ⟨t, h1, h2⟩ := h.first hx
    exact ⟨t, h1, fun h3 => by rw [h3] at h2; cases h2⟩
  unfold wp stateMachine
  cases hst : s.state <;> simp only
  case streamStart =>
    show wp (parseStreamStart S) EPost Any s
    unfold parseStreamStart
    rw [wp_bind]
    refine en_peek hg fun t s2 g2 a2 => ?_
    split
    next hd =>
      rw [wp_bind]
      refine en_set _ g2 fun s4 g4 a4 e4 => ?_
      rw [wp_bind]
      unfold wp skipTok
      rw [a4, a2]
      refine en_event ⟨?_, g4.stk⟩ (by simp) (by simp only; rw [e4]; intro h; cases h)
      simp [hd]
    · trivial
  case implicitDocumentStart => exact en_parseDocumentStart fuel true hg
  case documentStart => exact en_parseDocumentStart fuel false hg
  case documentContent =>
    show wp (parseDocumentContent S n) EPost Any s
    unfold parseDocumentContent
    rw [wp_bind]
    refine en_peek hg fun t s2 g2 a2 => ?_
    split
    · rw [wp_bind]
      refine en_pop g2 fun s3 g3 a3 e3 => ?_
      exact en_empty g3 e3
    · exact en_parseNode g2
  case documentEnd =>
    show wp (parseDocumentEnd S) EPost Any s
    unfold parseDocumentEnd
    rw [wp_bind]
    refine en_peek hg fun t s2 g2 a2 => ?_
    split
    next hd =>
      rw [wp_bind]
      refine en_skip g2 a2 (by rw [hd]; simp) fun s3 g3 => ?_
      rw [wp_bind]
      refine en_setTags g3 fun s4 g4 a4 => ?_
      rw [wp_bind]
      refine en_set _ g4 fun s5 g5 a5 e5 => ?_
      exact en_event g5 (by simp) (by rw [e5]; intro h; cases h)
    · rw [wp_bind]
      refine en_setTags g2 fun s4 g4 a4 => ?_
      rw [wp_bind]
      refine en_set _ g4 fun s5 g5 a5 e5 => ?_
      exact en_event g5 (by simp) (by rw [e5]; intro h; cases h)
  case blockNode => exact en_parseNode hg
  case blockSequenceFirstEntry => exact en_blockSeq hg fun _ => hf (by rw [hst]; rfl)
  case blockSequenceEntry => exact en_blockSeq hg fun h => by cases h
  case indentlessSequenceEntry => exact en_indentless hg
  case blockMappingFirstKey => exact en_blockMapKey hg fun _ => hf (by rw [hst]; rfl)
  case blockMappingKey => exact en_blockMapKey hg fun h => by cases h
  case blockMappingValue => exact en_blockMapValue hg
  case flowSequenceFirstEntry => exact en_flowSeq hg fun _ => hf (by rw [hst]; rfl)
  case flowSequenceEntry => exact en_flowSeq hg fun h => by cases h
  case flowSequenceEntryMappingKey => exact en_flowSeqKey hg
  case flowSequenceEntryMappingValue => exact en_flowSeqValue hg
  case flowSequenceEntryMappingEnd =>
    show wp (parseFlowSequenceEntryMappingEnd S) EPost Any s
    unfold parseFlowSequenceEntryMappingEnd
    rw [wp_bind]
    refine en_peek hg fun t s2 g2 a2 => ?_
    rw [wp_bind]
    refine en_set _ g2 fun s5 g5 a5 e5 => ?_
    exact en_event g5 (by simp) (by rw [e5]; intro h; cases h)
  case flowMappingFirstKey => exact en_flowMapKey hg fun _ => hf (by rw [hst]; rfl)
  case flowMappingKey => exact en_flowMapKey hg fun h => by cases h
  case flowMappingValue => exact en_flowMapValue hg
  case flowMappingEmptyValue => exact en_flowMapValue hg
  case done => trivial

theorem init_einv (x : σ) : EInv ({ src := x } : PS σ) := ⟨⟨rfl, by simp⟩, by simp [PState.isFirst]⟩

end LibYaml
