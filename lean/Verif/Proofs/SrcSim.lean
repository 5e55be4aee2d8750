import Verif.Model.Parser

/-!
# Sources of tokens that correspond to each other

If two sources give the same tokens, the same errors and the same depths in corresponding states, the parser does the same with both.
-/

namespace LibYaml

variable {σ τ α β : Type}

/-- In corresponding states both sources have the same depth and give the same. -/
def Simulates (S : TokSrc σ) (S' : TokSrc τ) (R : σ → τ → Prop) : Prop :=
  ∀ x y, R x y → S.depth x = S'.depth y ∧
    match S.next x, S'.next y with
    | .ok (t, x'), .ok (t', y') => t = t' ∧ R x' y'
    | .error e, .error e' => e = e'
    | _, _ => False

/-- The same parser state over another source. -/
def PS.over (s : PS σ) (y : τ) : PS τ :=
  { src := y, avail := s.avail, ended := s.ended, state := s.state, states := s.states, marks := s.marks, tags := s.tags }

/-- Results that correspond. -/
def Agree (R : σ → τ → Prop) : Except Fail (α × PS σ) → Except Fail (α × PS τ) → Prop
  | .ok (a, s), .ok (a', s') => a = a' ∧ ∃ y, R s.src y ∧ s' = s.over y
  | .error e, .error e' => e = e'
  | _, _ => False

/-- Corresponding actions. -/
def Matches (R : σ → τ → Prop) (m : PM σ α) (m' : PM τ α) : Prop := ∀ s y, R s.src y → Agree R (m s) (m' (s.over y))

section rules
variable {S : TokSrc σ} {S' : TokSrc τ} {R : σ → τ → Prop}

theorem mt_bind {m : PM σ α} {m' : PM τ α} {k : α → PM σ β} {k' : α → PM τ β} (h : Matches R m m')
    (hk : ∀ a, Matches R (k a) (k' a)) : Matches R (m >>= k) (m' >>= k') := by
  intro s y hy
  have := h s y hy
  show Agree R (m s >>= fun x => k x.1 x.2) (m' (s.over y) >>= fun x => k' x.1 x.2)
  cases h1 : m s with
  | error e =>
    rw [h1] at this
    cases h2 : m' (s.over y) with
    | error e' => rw [h2] at this; exact this
    | ok r => rw [h2] at this; exact this.elim
  | ok r =>
    obtain ⟨a, t⟩ := r
    rw [h1] at this
    cases h2 : m' (s.over y) with
    | error e' => rw [h2] at this; exact this.elim
    | ok r' =>
      obtain ⟨a', t'⟩ := r'
      rw [h2] at this
      obtain ⟨rfl, z, hz, rfl⟩ := this
      exact hk a t z hz

theorem mt_pure {a : α} : Matches R (pure a) (pure a) := fun _ y hy => ⟨rfl, y, hy, rfl⟩
theorem mt_fail {e : Fail} : Matches R (pfail e : PM σ α) (pfail e) := fun _ _ _ => rfl
theorem mt_perr {p : String} {m : Mark} : Matches R (perr p m : PM σ α) (perr p m) := fun _ _ _ => rfl
theorem mt_perrCtx {c p : String} {cm m : Mark} : Matches R (perrCtx c cm p m : PM σ α) (perrCtx c cm p m) := fun _ _ _ => rfl
theorem mt_emptyScalar {m : Mark} : Matches R (emptyScalar m) (emptyScalar m) := fun _ y hy => ⟨rfl, y, hy, rfl⟩
theorem mt_setState {st : PState} : Matches R (setState st) (setState st) := fun _ y hy => ⟨rfl, y, hy, rfl⟩
theorem mt_pushState {st : PState} : Matches R (pushState st) (pushState st) := fun _ y hy => ⟨rfl, y, hy, rfl⟩
theorem mt_pushMark {m : Mark} : Matches R (pushMark m) (pushMark m) := fun _ y hy => ⟨rfl, y, hy, rfl⟩
theorem mt_getTags : Matches R (getTags : PM σ _) getTags := fun _ y hy => ⟨rfl, y, hy, rfl⟩
theorem mt_setTags {ts : List TagDir} : Matches R (setTags ts) (setTags ts) := fun _ y hy => ⟨rfl, y, hy, rfl⟩

theorem mt_popState : Matches R (popState : PM σ _) popState := by
  intro s y hy
  unfold popState PS.over
  simp only
  cases s.states with
  | nil => exact rfl
  | cons st r => exact ⟨rfl, y, hy, rfl⟩

theorem mt_popMark : Matches R (popMark : PM σ _) popMark := by
  intro s y hy
  unfold popMark PS.over
  simp only
  cases s.marks with
  | nil => exact rfl
  | cons st r => exact ⟨rfl, y, hy, rfl⟩

theorem mt_skip : Matches R (skipTok : PM σ _) skipTok := by
  intro s y hy
  unfold skipTok PS.over
  simp only
  cases s.avail with
  | none => exact rfl
  | some t => exact ⟨rfl, y, hy, rfl⟩

theorem mt_ite {c : Prop} [Decidable c] {m n : PM σ α} {m' n' : PM τ α} (h : Matches R m m') (hn : Matches R n n') :
    Matches R (if c then m else n) (if c then m' else n') := by
  by_cases hc : c
  · rw [if_pos hc, if_pos hc]; exact h
  · rw [if_neg hc, if_neg hc]; exact hn

variable (hS : Simulates S S' R)
include hS

theorem mt_peek : Matches R (peek S) (peek S') := by
  intro s y hy
  unfold peek PS.over
  simp only
  cases ha : s.avail with
  | some t => exact ⟨rfl, y, hy, by rw [← ha]; rfl⟩
  | none =>
    have := (hS s.src y hy).2
    simp only
    cases h1 : S.next s.src with
    | error e =>
      rw [h1] at this
      cases h2 : S'.next y with
      | error e' => rw [h2] at this; exact this
      | ok r => rw [h2] at this; exact this.elim
    | ok r =>
      obtain ⟨t, x'⟩ := r
      rw [h1] at this
      cases h2 : S'.next y with
      | error e' => rw [h2] at this; exact this.elim
      | ok r' =>
        obtain ⟨t', y'⟩ := r'
        rw [h2] at this
        obtain ⟨rfl, hr⟩ := this
        exact ⟨rfl, y', hr, rfl⟩

theorem mt_peekUnchecked : Matches R (peekUnchecked S) (peekUnchecked S') := by
  intro s y hy
  have := mt_peek hS s y hy
  unfold peekUnchecked
  cases h1 : peek S s with
  | error e =>
    rw [h1] at this
    cases h2 : peek S' (s.over y) with
    | error e' => exact rfl
    | ok r => rw [h2] at this; exact this.elim
  | ok r =>
    rw [h1] at this
    cases h2 : peek S' (s.over y) with
    | error e' => rw [h2] at this; exact this.elim
    | ok r' => rw [h2] at this; exact this

theorem mt_checkLevel {n : Int} {a b : Mark} : Matches R (checkLevel S n a b) (checkLevel S' n a b) := by
  intro s y hy
  unfold checkLevel
  show Agree R (if (S.depth s.src : Int) < n then _ else _) (if (S'.depth y : Int) < n then _ else _)
  rw [(hS s.src y hy).1]
  by_cases h : (S'.depth y : Int) < n
  · rw [if_pos h, if_pos h]; exact ⟨rfl, y, hy, rfl⟩
  · rw [if_neg h, if_neg h]; exact rfl

end rules

/-- Walk through two corresponding actions. -/
macro "mt" hS:ident : tactic => `(tactic| repeat' first
  | exact mt_pure | exact mt_fail | exact mt_perr | exact mt_perrCtx | exact mt_emptyScalar | exact mt_setState | exact mt_pushState
  | exact mt_pushMark | exact mt_getTags | exact mt_setTags | exact mt_popState | exact mt_popMark | exact mt_skip
  | exact mt_peek $hS | exact mt_peekUnchecked $hS | exact mt_checkLevel $hS
  | refine mt_ite ?_ ?_
  | refine mt_bind ?_ (fun _ => ?_))

section functions
variable {S : TokSrc σ} {S' : TokSrc τ} {R : σ → τ → Prop} (hS : Simulates S S' R)
include hS

theorem mt_parseStreamStart : Matches R (parseStreamStart S) (parseStreamStart S') := by
  refine mt_bind (mt_peek hS) fun t => ?_
  obtain ⟨d, _, _⟩ := t
  cases d <;> mt hS

omit hS in
theorem mt_appendTag {v : TagDir} {b : Bool} {m : Mark} : Matches R (appendTagM v b m : PM σ _) (appendTagM v b m) := by
  refine mt_bind mt_getTags fun ts => ?_
  cases appendTag v b m ts with
  | error e => exact mt_fail
  | ok ts => exact mt_setTags

theorem mt_directivesLoop {f : Nat} {v : Option Version} {ts : List TagDir} : Matches R (directivesLoop S f v ts) (directivesLoop S' f v ts) := by
  induction f generalizing v ts with
  | zero => exact mt_fail
  | succ f ih =>
    refine mt_bind (mt_peek hS) fun t => ?_
    obtain ⟨d, _, _⟩ := t
    cases d
    case versionDirective w =>
      refine mt_ite mt_perr (mt_ite mt_perr (mt_bind mt_skip fun _ => ih))
    case tagDirective w => exact mt_bind mt_appendTag fun _ => mt_bind mt_skip fun _ => ih
    all_goals exact mt_pure

theorem mt_processDirectives {f : Nat} : Matches R (processDirectives S f) (processDirectives S' f) :=
  mt_bind (mt_directivesLoop hS) fun _ => mt_bind (mt_peek hS) fun _ => mt_bind mt_appendTag fun _ => mt_bind mt_appendTag fun _ => mt_pure

theorem mt_skipDocumentEnds {f : Nat} : Matches R (skipDocumentEnds S f) (skipDocumentEnds S' f) := by
  induction f with
  | zero => exact mt_fail
  | succ f ih =>
    refine mt_bind (mt_peek hS) fun t => ?_
    obtain ⟨d, _, _⟩ := t
    cases d
    case documentEnd => exact mt_bind mt_skip fun _ => ih
    all_goals exact mt_pure

theorem mt_parseDocumentStart {f : Nat} {b : Bool} : Matches R (parseDocumentStart S f b) (parseDocumentStart S' f b) := by
  unfold parseDocumentStart
  cases b
  · refine mt_bind (mt_skipDocumentEnds hS) fun _ => mt_bind (mt_peek hS) fun t => mt_ite ?_ (mt_ite ?_ ?_)
    · refine mt_bind (mt_processDirectives hS) fun _ => ?_
      mt hS
    · refine mt_bind (mt_processDirectives hS) fun _ => ?_
      mt hS
    · mt hS
  · refine mt_bind (mt_peek hS) fun t => mt_ite ?_ (mt_ite ?_ ?_)
    · refine mt_bind (mt_processDirectives hS) fun _ => ?_
      mt hS
    · refine mt_bind (mt_processDirectives hS) fun _ => ?_
      mt hS
    · mt hS

theorem mt_parseProps {t : Token} : Matches R (parseProps S t) (parseProps S' t) := by
  obtain ⟨d, _, _⟩ := t
  unfold parseProps
  cases d
  case anchor a =>
    refine mt_bind mt_skip fun _ => mt_bind (mt_peek hS) fun t => ?_
    obtain ⟨d, _, _⟩ := t
    cases d <;> mt hS
  case tag a b =>
    refine mt_bind mt_skip fun _ => mt_bind (mt_peek hS) fun t => ?_
    obtain ⟨d, _, _⟩ := t
    cases d <;> mt hS
  all_goals exact mt_pure

omit hS in
theorem mt_resolveTag {p : Props} : Matches R (resolveTagM p : PM σ _) (resolveTagM p) := by
  refine mt_bind mt_getTags fun ts => ?_
  cases resolveTag ts p with
  | error e => exact mt_fail
  | ok ts => exact mt_pure

theorem mt_nodeContent {n : Int} {b i : Bool} {p : Props} {tag : Option Text} {t : Token} :
    Matches R (nodeContent S n b i p tag t) (nodeContent S' n b i p tag t) := by
  unfold nodeContent
  refine mt_ite (mt_bind mt_setState fun _ => mt_pure) ?_
  obtain ⟨d, _, _⟩ := t
  cases d <;> mt hS

theorem mt_parseNode {n : Int} {b i : Bool} : Matches R (parseNode S n b i) (parseNode S' n b i) := by
  refine mt_bind (mt_peek hS) fun t => ?_
  have hn : Matches R (do let (p, token) ← parseProps S t; let tag ← resolveTagM p; nodeContent S n b i p tag token)
      (do let (p, token) ← parseProps S' t; let tag ← resolveTagM p; nodeContent S' n b i p tag token) :=
    mt_bind (mt_parseProps hS) fun _ => mt_bind mt_resolveTag fun _ => mt_nodeContent hS
  obtain ⟨d, _, _⟩ := t
  cases d
  case alias a => mt hS
  all_goals exact hn

theorem mt_parseDocumentContent {n : Int} : Matches R (parseDocumentContent S n) (parseDocumentContent S' n) :=
  mt_bind (mt_peek hS) fun _ => mt_ite (mt_bind mt_popState fun _ => mt_emptyScalar) (mt_parseNode hS)

theorem mt_parseDocumentEnd : Matches R (parseDocumentEnd S) (parseDocumentEnd S') := by
  unfold parseDocumentEnd
  mt hS

theorem mt_enterCollection {first : Bool} : Matches R (enterCollection S first) (enterCollection S' first) := by
  unfold enterCollection
  mt hS

theorem mt_parseBlockSequenceEntry {n : Int} {first : Bool} : Matches R (parseBlockSequenceEntry S n first) (parseBlockSequenceEntry S' n first) := by
  refine mt_bind (mt_enterCollection hS) fun _ => mt_bind (mt_peek hS) fun t => ?_
  obtain ⟨d, _, _⟩ := t
  cases d
  case blockEntry =>
    refine mt_bind mt_skip fun _ => mt_bind (mt_peek hS) fun t => mt_ite (mt_bind mt_pushState fun _ => mt_parseNode hS) ?_
    mt hS
  all_goals mt hS

theorem mt_parseIndentlessSequenceEntry {n : Int} : Matches R (parseIndentlessSequenceEntry S n) (parseIndentlessSequenceEntry S' n) := by
  refine mt_bind (mt_peek hS) fun t => mt_ite ?_ ?_
  · refine mt_bind mt_skip fun _ => mt_bind (mt_peek hS) fun t => mt_ite (mt_bind mt_pushState fun _ => mt_parseNode hS) ?_
    mt hS
  · mt hS

theorem mt_parseBlockMappingKey {n : Int} {first : Bool} : Matches R (parseBlockMappingKey S n first) (parseBlockMappingKey S' n first) := by
  refine mt_bind (mt_enterCollection hS) fun _ => mt_bind (mt_peek hS) fun t => ?_
  obtain ⟨d, _, _⟩ := t
  cases d
  case key =>
    refine mt_bind mt_skip fun _ => mt_bind (mt_peek hS) fun t => mt_ite (mt_bind mt_pushState fun _ => mt_parseNode hS) ?_
    mt hS
  all_goals mt hS

theorem mt_parseBlockMappingValue {n : Int} : Matches R (parseBlockMappingValue S n) (parseBlockMappingValue S' n) := by
  refine mt_bind (mt_peek hS) fun t => mt_ite ?_ ?_
  · refine mt_bind mt_skip fun _ => mt_bind (mt_peek hS) fun t => mt_ite (mt_bind mt_pushState fun _ => mt_parseNode hS) ?_
    mt hS
  · mt hS

omit hS in
theorem mt_endFlow {d : EvData} {t : Token} : Matches R (endFlow d t : PM σ _) (endFlow d t) :=
  mt_bind mt_popState fun _ => mt_bind mt_popMark fun _ => mt_bind mt_skip fun _ => mt_pure

theorem mt_flowSeparator {first : Bool} {t : Token} {c p : String} : Matches R (flowSeparator S first t c p) (flowSeparator S' first t c p) := by
  unfold flowSeparator
  mt hS

theorem mt_parseFlowSequenceEntry {n : Int} {first : Bool} : Matches R (parseFlowSequenceEntry S n first) (parseFlowSequenceEntry S' n first) := by
  refine mt_bind (mt_enterCollection hS) fun _ => mt_bind (mt_peek hS) fun t => mt_ite ?_ mt_endFlow
  refine mt_bind (mt_flowSeparator hS) fun t => mt_ite ?_ (mt_ite (mt_bind mt_pushState fun _ => mt_parseNode hS) mt_endFlow)
  mt hS

theorem mt_parseFlowSequenceEntryMappingKey {n : Int} :
    Matches R (parseFlowSequenceEntryMappingKey S n) (parseFlowSequenceEntryMappingKey S' n) := by
  refine mt_bind (mt_peek hS) fun t => mt_ite (mt_bind mt_pushState fun _ => mt_parseNode hS) ?_
  mt hS

theorem mt_parseFlowSequenceEntryMappingValue {n : Int} :
    Matches R (parseFlowSequenceEntryMappingValue S n) (parseFlowSequenceEntryMappingValue S' n) := by
  refine mt_bind (mt_peek hS) fun t => mt_ite ?_ ?_
  · refine mt_bind mt_skip fun _ => mt_bind (mt_peek hS) fun t => mt_ite (mt_bind mt_pushState fun _ => mt_parseNode hS) ?_
    mt hS
  · mt hS

theorem mt_parseFlowSequenceEntryMappingEnd : Matches R (parseFlowSequenceEntryMappingEnd S) (parseFlowSequenceEntryMappingEnd S') := by
  unfold parseFlowSequenceEntryMappingEnd
  mt hS

theorem mt_parseFlowMappingKey {n : Int} {first : Bool} : Matches R (parseFlowMappingKey S n first) (parseFlowMappingKey S' n first) := by
  refine mt_bind (mt_enterCollection hS) fun _ => mt_bind (mt_peek hS) fun t => mt_ite ?_ mt_endFlow
  refine mt_bind (mt_flowSeparator hS) fun t => mt_ite ?_ (mt_ite (mt_bind mt_pushState fun _ => mt_parseNode hS) mt_endFlow)
  refine mt_bind mt_skip fun _ => mt_bind (mt_peek hS) fun t => mt_ite (mt_bind mt_pushState fun _ => mt_parseNode hS) ?_
  mt hS

theorem mt_parseFlowMappingValue {n : Int} {e : Bool} : Matches R (parseFlowMappingValue S n e) (parseFlowMappingValue S' n e) := by
  refine mt_bind (mt_peek hS) fun t => mt_ite ?_ (mt_ite ?_ ?_)
  · mt hS
  · refine mt_bind mt_skip fun _ => mt_bind (mt_peek hS) fun t => mt_ite (mt_bind mt_pushState fun _ => mt_parseNode hS) ?_
    mt hS
  · mt hS

theorem mt_stateMachine {n : Int} {f : Nat} : Matches R (stateMachine S n f) (stateMachine S' n f) := by
  intro s y hy
  unfold stateMachine
  have e : (s.over y).state = s.state := rfl
  rw [e]
  cases s.state <;> simp only []
  · exact mt_parseStreamStart hS s y hy
  · exact mt_parseDocumentStart hS s y hy
  · exact mt_parseDocumentStart hS s y hy
  · exact mt_parseDocumentContent hS s y hy
  · exact mt_parseDocumentEnd hS s y hy
  · exact mt_parseNode hS s y hy
  · exact mt_parseBlockSequenceEntry hS s y hy
  · exact mt_parseBlockSequenceEntry hS s y hy
  · exact mt_parseIndentlessSequenceEntry hS s y hy
  · exact mt_parseBlockMappingKey hS s y hy
  · exact mt_parseBlockMappingKey hS s y hy
  · exact mt_parseBlockMappingValue hS s y hy
  · exact mt_parseFlowSequenceEntry hS s y hy
  · exact mt_parseFlowSequenceEntry hS s y hy
  · exact mt_parseFlowSequenceEntryMappingKey hS s y hy
  · exact mt_parseFlowSequenceEntryMappingValue hS s y hy
  · exact mt_parseFlowSequenceEntryMappingEnd hS s y hy
  · exact mt_parseFlowMappingKey hS s y hy
  · exact mt_parseFlowMappingKey hS s y hy
  · exact mt_parseFlowMappingValue hS s y hy
  · exact mt_parseFlowMappingValue hS s y hy
  · exact rfl

end functions

/-- The same parser over another source. -/
def Parser.over (p : Parser σ) (y : τ) : Parser τ := { st := p.st.over y, error := p.error }

/-- Results of calls that correspond. -/
def AgreeP (R : σ → τ → Prop) {ω : Type} : Except Fail (ω × Parser σ) → Except Fail (ω × Parser τ) → Prop
  | .ok (o, p), .ok (o', p') => o = o' ∧ ∃ y, R p.st.src y ∧ p' = p.over y
  | .error e, .error e' => e = e'
  | _, _ => False

theorem parse_sim {S : TokSrc σ} {S' : TokSrc τ} {R : σ → τ → Prop} (hS : Simulates S S' R) (n : Int) (f : Nat) (p : Parser σ) (y : τ)
    (hy : R p.st.src y) : AgreeP R (parse S n f p) (parse S' n f (p.over y)) := by
  unfold parse
  show AgreeP R (if (p.st.ended || p.error.isSome || p.st.state = .done) = true then _ else _)
    (if (p.st.ended || p.error.isSome || p.st.state = .done) = true then _ else _)
  by_cases h : (p.st.ended || p.error.isSome || p.st.state = .done) = true
  · rw [if_pos h, if_pos h]; exact ⟨rfl, y, hy, rfl⟩
  rw [if_neg h, if_neg h]
  have := mt_stateMachine hS (n := n) (f := f) p.st y hy
  have e : (p.over y).st = p.st.over y := rfl
  rw [e]
  cases h1 : stateMachine S n f p.st with
  | error e =>
    rw [h1] at this
    cases h2 : stateMachine S' n f (p.st.over y) with
    | ok r => rw [h2] at this; exact this.elim
    | error e' =>
      rw [h2] at this
      have e : e = e' := this
      subst e
      cases e <;> first | exact rfl | exact ⟨rfl, y, hy, rfl⟩
  | ok r =>
    obtain ⟨a, s1⟩ := r
    rw [h1] at this
    cases h2 : stateMachine S' n f (p.st.over y) with
    | error e' => rw [h2] at this; exact this.elim
    | ok r' =>
      obtain ⟨a', s1'⟩ := r'
      rw [h2] at this
      obtain ⟨rfl, z, hz, rfl⟩ := this
      exact ⟨rfl, z, hz, rfl⟩

theorem parseN_sim {S : TokSrc σ} {S' : TokSrc τ} {R : σ → τ → Prop} (hS : Simulates S S' R) (n : Int) (f k : Nat) (p : Parser σ) (y : τ)
    (hy : R p.st.src y) : AgreeP R (parseN S n f k p) (parseN S' n f k (p.over y)) := by
  induction k generalizing p y with
  | zero => exact ⟨rfl, y, hy, rfl⟩
  | succ k ih =>
    unfold parseN
    have := parse_sim hS n f p y hy
    cases h1 : parse S n f p with
    | error e =>
      rw [h1] at this
      cases h2 : parse S' n f (p.over y) with
      | ok r => rw [h2] at this; exact this.elim
      | error e' => rw [h2] at this; exact this
    | ok r =>
      obtain ⟨o, p1⟩ := r
      rw [h1] at this
      cases h2 : parse S' n f (p.over y) with
      | error e' => rw [h2] at this; exact this.elim
      | ok r' =>
        obtain ⟨o', p1'⟩ := r'
        rw [h2] at this
        obtain ⟨rfl, z, hz, rfl⟩ := this
        have := ih p1 z hz
        simp only
        cases h3 : parseN S n f k p1 with
        | error e =>
          rw [h3] at this
          cases h4 : parseN S' n f k (p1.over z) with
          | ok r => rw [h4] at this; exact this.elim
          | error e' => rw [h4] at this; exact this
        | ok r =>
          obtain ⟨os, p2⟩ := r
          rw [h3] at this
          cases h4 : parseN S' n f k (p1.over z) with
          | error e' => rw [h4] at this; exact this.elim
          | ok r' =>
            obtain ⟨os', p2'⟩ := r'
            rw [h4] at this
            obtain ⟨rfl, z', hz', rfl⟩ := this
            exact ⟨rfl, z', hz', rfl⟩

end LibYaml
