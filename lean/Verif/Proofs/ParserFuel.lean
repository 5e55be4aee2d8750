import Verif.Proofs.Parser

/-!
The loops of the parser (directives, DOCUMENT-END tokens) terminate: with a source that delivers only so many tokens
before STREAM-END the fuel of the model is never exhausted.
-/

namespace LibYaml

variable {σ α β : Type}

/-- `left` bounds the number of tokens that the source still delivers before STREAM-END. -/
structure Bounded (S : TokSrc σ) (left : σ → Nat) : Prop where
  error : ∀ x e, S.next x = .error e → e ≠ .fuel
  le : ∀ x t y, S.next x = .ok (t, y) → left y ≤ left x
  lt : ∀ x t y, S.next x = .ok (t, y) → t.data ≠ .streamEnd → left y < left x

section
variable {S : TokSrc σ} {left : σ → Nat} {b : Nat}

/-- From a state with at most `b` tokens left the action does not run out of fuel, and there are not more tokens left afterwards. -/
def NF (left : σ → Nat) (m : PM σ α) : Prop :=
  ∀ (b : Nat) (s : PS σ), left s.src ≤ b → wp m (fun _ s' => left s'.src ≤ b) (fun e => e ≠ .fuel) s

theorem nf_bind {m : PM σ α} {k : α → PM σ β} (h : NF left m) (hk : ∀ a, NF left (k a)) : NF left (m >>= k) := by
  intro b s hs
  rw [wp_bind]
  have := h b s hs
  unfold wp at this ⊢
  cases hm : m s with
  | error e => rw [hm] at this; exact this
  | ok r =>
    rw [hm] at this
    exact hk r.1 b r.2 this

theorem nf_pure {a : α} : NF left (pure a : PM σ α) := fun _ _ h => h
theorem nf_perr {p : String} {m : Mark} : NF left (perr p m : PM σ α) := fun _ _ _ h => by cases h
theorem nf_perrCtx {c p : String} {cm m : Mark} : NF left (perrCtx c cm p m : PM σ α) := fun _ _ _ h => by cases h
theorem nf_emptyScalar {m : Mark} : NF left (emptyScalar m : PM σ Event) := nf_pure
theorem nf_setState {st : PState} : NF left (setState st) := fun _ _ h => h
theorem nf_pushState {st : PState} : NF left (pushState st) := fun _ _ h => h
theorem nf_pushMark {m : Mark} : NF left (pushMark m) := fun _ _ h => h
theorem nf_getTags : NF left (getTags : PM σ _) := fun _ _ h => h
theorem nf_setTags {ts : List TagDir} : NF left (setTags ts) := fun _ _ h => h

theorem nf_popState : NF left (popState : PM σ _) := by
  intro b s h
  unfold wp popState
  cases s.states with
  | nil => exact (fun h => by cases h)
  | cons => exact h

theorem nf_popMark : NF left (popMark : PM σ _) := by
  intro b s h
  unfold wp popMark
  cases s.marks with
  | nil => exact (fun h => by cases h)
  | cons => exact h

theorem nf_skipTok : NF left (skipTok : PM σ _) := by
  intro b s h
  unfold wp skipTok
  cases s.avail with
  | none => exact (fun h => by cases h)
  | some => exact h

theorem nf_peek (hS : Bounded S left) : NF left (peek S) := by
  intro b s h
  unfold wp peek
  cases s.avail with
  | some t => exact h
  | none =>
    simp only
    cases hn : S.next s.src with
    | error e => exact hS.error _ _ hn
    | ok r => exact Nat.le_trans (hS.le _ _ _ hn) h

theorem nf_peekUnchecked (hS : Bounded S left) : NF left (peekUnchecked S) := by
  intro b s h
  have := nf_peek hS b s h
  unfold wp at this ⊢
  unfold peekUnchecked
  cases hp : peek S s with
  | error e => exact (fun h => by cases h)
  | ok r => rw [hp] at this; exact this

theorem nf_checkLevel {n : Int} {a c : Mark} : NF left (checkLevel S n a c) := by
  intro b s h
  unfold wp checkLevel
  split
  next heq =>
    split at heq
    · cases heq; exact h
    · cases heq
  next heq =>
    split at heq
    · cases heq
    · cases heq; exact (fun h => by cases h)

theorem nf_appendTagM {v : TagDir} {x : Bool} {m : Mark} : NF left (appendTagM v x m : PM σ Unit) := fun _ _ h =>
  wp_appendTagM (fun _ h => by cases h) fun _ => h

theorem nf_resolveTagM {p : Props} : NF left (resolveTagM p : PM σ _) := fun _ _ h =>
  wp_resolveTagM (fun _ _ _ _ h => by cases h) fun _ => h

theorem nf_ite {c : Prop} [Decidable c] {m m' : PM σ α} (h : NF left m) (h' : NF left m') : NF left (if c then m else m') := by
  split
  · exact h
  · exact h'

/-- Apply the rules. -/
macro "nf" : tactic => `(tactic| repeat (first
  | exact nf_pure | exact nf_perr | exact nf_perrCtx | exact nf_emptyScalar | exact nf_setState | exact nf_pushState | exact nf_pushMark
  | exact nf_getTags | exact nf_setTags | exact nf_popState | exact nf_popMark | exact nf_skipTok | exact nf_checkLevel
  | exact nf_appendTagM | exact nf_resolveTagM | exact nf_peek ‹_› | exact nf_peekUnchecked ‹_› | assumption
  | refine nf_bind ?_ (fun _ => ?_) | split))

theorem nf_parseProps (hS : Bounded S left) {t : Token} : NF left (parseProps S t) := by
  unfold parseProps
  nf

theorem nf_nodeContent {n : Int} {bl ind : Bool} {p : Props} {tag : Option Text} {t : Token} :
    NF left (nodeContent S n bl ind p tag t) := by
  unfold nodeContent
  simp only
  nf

theorem nf_parseNode (hS : Bounded S left) {n : Int} {bl ind : Bool} : NF left (parseNode S n bl ind) := by
  unfold parseNode
  have h1 : ∀ t, NF left (parseProps S t) := fun _ => nf_parseProps hS
  have h2 : ∀ p tag t, NF left (nodeContent S n bl ind p tag t) := fun _ _ _ => nf_nodeContent
  refine nf_bind (nf_peek hS) fun t => ?_
  split
  · nf
  · exact nf_bind (h1 _) fun r => nf_bind nf_resolveTagM fun _ => h2 _ _ _

theorem nf_enterCollection (hS : Bounded S left) {first : Bool} : NF left (enterCollection S first) := by
  unfold enterCollection
  nf

theorem nf_flowSeparator (hS : Bounded S left) {first : Bool} {t : Token} {c p : String} : NF left (flowSeparator S first t c p) := by
  unfold flowSeparator
  nf

theorem nf_endFlow {d : EvData} {t : Token} : NF left (endFlow d t : PM σ Event) := by
  unfold endFlow
  nf

/-- Tokens that may still be looked at. -/
def PS.budget (left : σ → Nat) (s : PS σ) : Nat := left s.src + (if s.avail.isSome then 1 else 0)

theorem budget_skip {s : PS σ} {v : Bool} : PS.budget left { s with avail := none, ended := v } = left s.src := rfl

/-- One round of a loop: the next token, unless it is STREAM-END, was paid for. -/
theorem wp_round (hS : Bounded S left) {k : Token → PM σ α} {Q : α → PS σ → Prop} (s : PS σ) (b : Nat) (hb : left s.src ≤ b)
    (h : ∀ t s', s'.avail = some t → left s'.src ≤ b → (t.data ≠ .streamEnd → left s'.src < s.budget left) →
      wp (k t) Q (fun e => e ≠ .fuel) s') : wp (peek S >>= k) Q (fun e => e ≠ .fuel) s := by
  rw [wp_bind]
  unfold wp peek
  cases ha : s.avail with
  | some t => exact h t s ha hb fun _ => by simp [PS.budget, ha]
  | none =>
    simp only
    cases hn : S.next s.src with
    | error e => exact hS.error _ _ hn
    | ok r =>
      obtain ⟨t, y⟩ := r
      refine h t { s with avail := some t, src := y } rfl (Nat.le_trans (hS.le _ _ _ hn) hb) fun ht => ?_
      have := hS.lt _ _ _ hn ht
      simpa [PS.budget, ha] using this

theorem nf_skipDocumentEnds (hS : Bounded S left) (fuel : Nat) (s : PS σ) (b : Nat) (hb : left s.src ≤ b)
    (hf : s.budget left < fuel) :
    wp (skipDocumentEnds S fuel) (fun _ s' => left s'.src ≤ b) (fun e => e ≠ .fuel) s := by
  induction fuel generalizing s with
  | zero => omega
  | succ fuel ih =>
    unfold skipDocumentEnds
    refine wp_round hS s b hb fun t s' ha h1 h3 => ?_
    split
    next hd =>
      rw [wp_bind]
      refine wp_skipTok ha ?_
      have h4 := h3 (by rw [hd]; simp)
      exact ih _ h1 (by rw [budget_skip]; omega)
    · exact h1

theorem nf_directivesLoop (hS : Bounded S left) (fuel : Nat) (v : Option Version) (ts : List TagDir) (s : PS σ) (b : Nat)
    (hb : left s.src ≤ b) (hf : s.budget left < fuel) :
    wp (directivesLoop S fuel v ts) (fun _ s' => left s'.src ≤ b) (fun e => e ≠ .fuel) s := by
  induction fuel generalizing s v ts with
  | zero => omega
  | succ fuel ih =>
    unfold directivesLoop
    refine wp_round hS s b hb fun t s' ha h1 h3 => ?_
    split
    next hd =>
      have h4 := h3 (by rw [hd]; simp)
      split
      · exact nf_perr b s' h1
      split
      · exact nf_perr b s' h1
      rw [wp_bind]
      refine wp_skipTok ha ?_
      exact ih _ _ _ h1 (by rw [budget_skip]; omega)
    next hd =>
      have h4 := h3 (by rw [hd]; simp)
      rw [wp_bind]
      refine wp_appendTagM (fun _ h => by cases h) fun tg => ?_
      rw [wp_bind]
      refine wp_skipTok (t := t) ha ?_
      exact ih _ _ _ h1 (by rw [budget_skip]; exact Nat.lt_of_lt_of_le h4 (Nat.le_of_lt_succ hf))
    · exact h1

theorem budget_le (s : PS σ) : s.budget left ≤ left s.src + 1 := by
  unfold PS.budget; split <;> omega

theorem nf_processDirectives (hS : Bounded S left) (fuel : Nat) (s : PS σ) (b : Nat) (hb : left s.src ≤ b)
    (hf : b + 1 < fuel) : wp (processDirectives S fuel) (fun _ s' => left s'.src ≤ b) (fun e => e ≠ .fuel) s := by
  unfold processDirectives
  rw [wp_bind]
  refine wp_mono (nf_directivesLoop hS fuel none [] s b hb (by have := budget_le (left := left) s; omega)) ?_ (fun _ h => h)
  intro r s' h
  have : NF left (do let token ← peek S; appendTagM ⟨lit ['!'], lit ['!']⟩ true token.start; appendTagM ⟨lit ['!', '!'], lit ['t','a','g',':','y','a','m','l','.','o','r','g',',','2','0','0','2',':']⟩ true token.start; pure r : PM σ _) := by
    nf
  exact this b s' h

theorem nf_parseDocumentStart (hS : Bounded S left) (fuel : Nat) (implicit : Bool) (s : PS σ) (b : Nat) (hb : left s.src ≤ b)
    (hf : b + 1 < fuel) : wp (parseDocumentStart S fuel implicit) (fun _ s' => left s'.src ≤ b) (fun e => e ≠ .fuel) s := by
  have hrest : ∀ s : PS σ, left s.src ≤ b → wp (do
      let token ← peek S
      if implicit && !token.data.startsDocument then
        let _ ← processDirectives S fuel
        pushState .documentEnd
        setState .blockNode
        pure { data := .documentStart none [] true, start := token.start, stop := token.start }
      else if token.data ≠ .streamEnd then
        let start := token.start
        let (version, tags) ← processDirectives S fuel
        let token ← peek S
        if token.data = .documentStart then
          pushState .documentEnd
          setState .documentContent
          skipTok
          pure { data := .documentStart version tags false, start := start, stop := token.stop }
        else perr "did not find expected <document start>" token.start
      else
        setState .done
        skipTok
        pure { data := .streamEnd, start := token.start, stop := token.stop } : PM σ Event)
      (fun _ s' => left s'.src ≤ b) (fun e => e ≠ .fuel) s := by
    intro s hb
    rw [wp_bind]
    refine wp_mono (nf_peek hS b s hb) (fun t s1 h1 => ?_) (fun _ h => h)
    split
    · rw [wp_bind]
      refine wp_mono (nf_processDirectives hS fuel s1 b h1 hf) (fun _ s2 h2 => ?_) (fun _ h => h)
      exact h2
    split
    · simp only
      rw [wp_bind]
      refine wp_mono (nf_processDirectives hS fuel s1 b h1 hf) (fun r s2 h2 => ?_) (fun _ h => h)
      have : NF left (do
        let token ← peek S
        if token.data = .documentStart then
          pushState .documentEnd
          setState .documentContent
          skipTok
          pure { data := .documentStart r.1 r.2 false, start := t.start, stop := token.stop }
        else perr "did not find expected <document start>" token.start : PM σ Event) := by nf
      exact this b s2 h2
    · have : NF left (do
        setState .done
        skipTok
        pure { data := .streamEnd, start := t.start, stop := t.stop } : PM σ Event) := by nf
      exact this b s1 h1
  unfold parseDocumentStart
  cases implicit with
  | true => exact hrest s hb
  | false =>
    show wp (skipDocumentEnds S fuel >>= fun _ => _) _ _ s
    rw [wp_bind]
    exact wp_mono (nf_skipDocumentEnds hS fuel s b hb (by have := budget_le (left := left) s; omega)) (fun _ s1 h1 => hrest s1 h1) (fun _ h => h)

/-- Apply the rules, with nodes. -/
macro "nfn" h:term : tactic => `(tactic| repeat (first
  | exact nf_parseNode $h | exact nf_enterCollection $h | exact nf_flowSeparator $h | exact nf_endFlow
  | exact nf_pure | exact nf_perr | exact nf_perrCtx | exact nf_emptyScalar | exact nf_setState | exact nf_pushState | exact nf_pushMark
  | exact nf_setTags | exact nf_popState | exact nf_popMark | exact nf_skipTok
  | exact nf_peek $h | refine nf_bind ?_ (fun _ => ?_) | split))

/-- One call. -/
theorem nf_stateMachine (hS : Bounded S left) (n : Int) (fuel : Nat) (s : PS σ) (b : Nat) (hb : left s.src ≤ b) (hf : b + 1 < fuel) :
    wp (stateMachine S n fuel) (fun _ s' => left s'.src ≤ b) (fun e => e ≠ .fuel) s := by
  have go : ∀ m : PM σ Event, NF left m → wp m (fun _ s' => left s'.src ≤ b) (fun e => e ≠ .fuel) s := fun m h => h b s hb
  show wp (fun s => stateMachine S n fuel s) _ _ s
  unfold stateMachine
  unfold wp
  simp only
  cases s.state
  all_goals simp only
  · exact go (parseStreamStart S) (by unfold parseStreamStart; nfn hS)
  · exact nf_parseDocumentStart hS fuel true s b hb hf
  · exact nf_parseDocumentStart hS fuel false s b hb hf
  · exact go (parseDocumentContent S n) (by unfold parseDocumentContent; nfn hS)
  · exact go (parseDocumentEnd S) (by unfold parseDocumentEnd; nfn hS)
  · exact go (parseNode S n true false) (nf_parseNode hS)
  · exact go (parseBlockSequenceEntry S n true) (by unfold parseBlockSequenceEntry; nfn hS)
  · exact go (parseBlockSequenceEntry S n false) (by unfold parseBlockSequenceEntry; nfn hS)
  · exact go (parseIndentlessSequenceEntry S n) (by unfold parseIndentlessSequenceEntry; nfn hS)
  · exact go (parseBlockMappingKey S n true) (by unfold parseBlockMappingKey; nfn hS)
  · exact go (parseBlockMappingKey S n false) (by unfold parseBlockMappingKey; nfn hS)
  · exact go (parseBlockMappingValue S n) (by unfold parseBlockMappingValue; nfn hS)
  · exact go (parseFlowSequenceEntry S n true) (by unfold parseFlowSequenceEntry; nfn hS)
  · exact go (parseFlowSequenceEntry S n false) (by unfold parseFlowSequenceEntry; nfn hS)
  · exact go (parseFlowSequenceEntryMappingKey S n) (by unfold parseFlowSequenceEntryMappingKey; nfn hS)
  · exact go (parseFlowSequenceEntryMappingValue S n) (by unfold parseFlowSequenceEntryMappingValue; nfn hS)
  · exact go (parseFlowSequenceEntryMappingEnd S) (by unfold parseFlowSequenceEntryMappingEnd; nfn hS)
  · exact go (parseFlowMappingKey S n true) (by unfold parseFlowMappingKey; nfn hS)
  · exact go (parseFlowMappingKey S n false) (by unfold parseFlowMappingKey; nfn hS)
  · exact go (parseFlowMappingValue S n false) (by unfold parseFlowMappingValue; nfn hS)
  · exact go (parseFlowMappingValue S n true) (by unfold parseFlowMappingValue; nfn hS)
  · exact (fun h => by cases h)

/-- One call of `yaml_parser_parse`. -/
theorem nf_parse (hS : Bounded S left) (n : Int) (fuel : Nat) (p : Parser σ) (b : Nat) (hb : left p.st.src ≤ b) (hf : b + 1 < fuel) :
    match parse S n fuel p with
    | .error e => e ≠ .fuel
    | .ok (_, p') => left p'.st.src ≤ b := by
  have h := nf_stateMachine hS n fuel p.st b hb hf
  unfold wp at h
  unfold parse
  by_cases hc : (p.st.ended || p.error.isSome || p.st.state = .done) = true
  · rw [if_pos hc]; exact hb
  · rw [if_neg hc]
    cases hm : stateMachine S n fuel p.st with
    | ok r => rw [hm] at h; exact h
    | error e =>
      rw [hm] at h
      cases e <;> first | exact hb | exact absurd rfl h | exact (fun h => by cases h)

/-- Any number of calls. -/
theorem nf_parseN (hS : Bounded S left) (n : Int) (fuel k : Nat) (p : Parser σ) (b : Nat) (hb : left p.st.src ≤ b) (hf : b + 1 < fuel) :
    parseN S n fuel k p ≠ .error .fuel := by
  induction k generalizing p with
  | zero => intro h; cases h
  | succ k ih =>
    intro h
    have h1 := nf_parse hS n fuel p b hb hf
    unfold parseN at h
    cases hp : parse S n fuel p with
    | error e =>
      rw [hp] at h h1
      simp only [Except.error.injEq] at h
      exact h1 h
    | ok r =>
      obtain ⟨o, p'⟩ := r
      rw [hp] at h h1
      simp only at h
      have h2 := ih p' h1
      cases hq : parseN S n fuel k p' with
      | error e =>
        rw [hq] at h
        simp only [Except.error.injEq] at h
        subst h
        exact h2 hq
      | ok r => rw [hq] at h; cases h

end

end LibYaml
