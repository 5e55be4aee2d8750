import Verif.Spec.ErrorMarks
import Verif.Proofs.PositionsRun
import Verif.Proofs.LoaderRun

/-! The errors of the parser are reported where `Spec/ErrorMarks.lean` says. -/

namespace LibYaml

open Spec

variable {σ : Type}

theorem openedToks_snoc (T : List Token) (t : Token) : openColls (T ++ [t]) = openStep (openColls T) t := by
  unfold openColls; rw [List.foldl_append]; rfl

/-- From `x` the tokens `T` have been taken, no STREAM-END among them; the stack of marks has the starts of the open
collections. -/
def Seen (S : TokSrc σ) (x : σ) (T : List Token) (s : PS σ) : Prop :=
  Took S none x T s ∧ s.marks = (openColls T).map Token.start ∧ ∀ t ∈ T, t.data ≠ .streamEnd

/-- The same for some tokens, or all is over. -/
def SeenSome (S : TokSrc σ) (x : σ) (_ : Event) (s : PS σ) : Prop := (∃ T, Seen S x T s) ∨ s.state = .done

/-- Failures: of the source; faults; errors of the parser reported at the right place. -/
def ErrIn (S : TokSrc σ) (x : σ) (er : Fail) : Prop :=
  (∃ T y, Feeds S x T y ∧ (∀ t ∈ T, t.data ≠ .streamEnd) ∧ S.next y = .error er) ∨ ¬ er.reported ∨
    ∃ T t y c cm p pm, Feeds S x (T ++ [t]) y ∧ (∀ t ∈ T, t.data ≠ .streamEnd) ∧ er = .parser c cm p pm ∧ ErrorAt T t c cm p pm

section rules
variable {S : TokSrc σ} {x : σ} {T : List Token} {s : PS σ} {n : Int}

theorem Seen.irrel {s' : PS σ} (h : Seen S x T s) (h1 : s'.avail = s.avail) (h2 : s'.src = s.src) (h3 : s'.marks = s.marks) :
    Seen S x T s' := ⟨h.1.irrel h1 h2, by rw [h3]; exact h.2.1, h.2.2⟩

theorem Seen.feeds {t : Token} (h : Seen S x T s) (ha : s.avail = some t) : Feeds S x (T ++ [t]) s.src := by
  obtain ⟨ts, h1, h2⟩ := h.1
  rw [ha] at h2
  have : ts = T ++ [t] := by simpa using h2
  rwa [← this]

theorem errIn_ub : ErrIn S x .ub := .inr (.inl (fun h => h))

theorem errIn_at {t : Token} {c : Option String} {cm pm : Mark} {p : String} (h : Seen S x T s) (ha : s.avail = some t)
    (he : ErrorAt T t c cm p pm) : ErrIn S x (.parser c cm p pm) :=
  .inr (.inr ⟨T, t, s.src, c, cm, p, pm, h.feeds ha, h.2.2, rfl, he⟩)

theorem pe_perr {α : Type} {t : Token} {p : String} {Q : α → PS σ → Prop} (h : Seen S x T s) (ha : s.avail = some t) :
    wp (perr p t.start) Q (ErrIn S x) s := wp_pfail (errIn_at h ha .plain)

theorem pe_peek {Q : Token → PS σ → Prop} (hm : Seen S x T s)
    (h : ∀ t s', Seen S x T s' → s'.avail = some t → Q t s') : wp (peek S) Q (ErrIn S x) s := by
  unfold wp peek
  cases ha : s.avail with
  | some t => exact h t s hm ha
  | none =>
    simp only
    obtain ⟨⟨ts, h1, h2⟩, h3⟩ := hm
    cases hn : S.next s.src with
    | error e => 
      have : ts = T := by rw [ha] at h2; simpa using h2
      subst this
      exact .inl ⟨ts, s.src, h1, h3.2, hn⟩
    | ok p =>
      refine h _ _ ⟨⟨ts ++ [p.1], .snoc h1 hn, ?_⟩, h3⟩ rfl
      rw [ha] at h2
      rw [← List.append_assoc, h2]; simp

theorem pe_skipAs {Q : Unit → PS σ → Prop} {t : Token} (hm : Took S none x T s) (ha : s.avail = some t)
    (hk : s.marks = (openStep (openColls T) t).map Token.start) (hc : ∀ t ∈ T, t.data ≠ .streamEnd) (hd : t.data ≠ .streamEnd) (h : ∀ s', Seen S x (T ++ [t]) s' → Q () s') :
    wp skipTok Q (ErrIn S x) s := by
  unfold wp skipTok; rw [ha]
  refine h _ ⟨?_, by rw [openedToks_snoc]; exact hk, fun u hu => ?_⟩
  case refine_2 =>
    rcases List.mem_append.mp hu with hu | hu
    · exact hc u hu
    · simp at hu; rw [hu]; exact hd
  obtain ⟨ts, h1, h2⟩ := hm
  exact ⟨ts, h1, by rw [h2, ha]; simp⟩

theorem pe_skip {Q : Unit → PS σ → Prop} {t : Token} (hm : Seen S x T s) (ha : s.avail = some t)
    (ho : opensColl t.data = false) (hc : closesColl t.data = false ∧ t.data ≠ .streamEnd) (h : ∀ s', Seen S x (T ++ [t]) s' → Q () s') :
    wp skipTok Q (ErrIn S x) s :=
  pe_skipAs hm.1 ha (by unfold openStep; rw [ho, hc.1]; exact hm.2.1) hm.2.2 hc.2 h

theorem pe_popState {Q : Unit → PS σ → Prop} (h : ∀ q K, Q () { s with state := q, states := K }) :
    wp popState Q (ErrIn S x) s := by
  unfold wp popState
  cases s.states with
  | nil => exact errIn_ub
  | cons q K => exact h q K

/-- `]`, `}` or the end of an indented collection. -/
theorem pe_close {t : Token} {e : Event} (hm : Seen S x T s) (ha : s.avail = some t) (ho : opensColl t.data = false)
    (hc : closesColl t.data = true) :
    wp (do let _ ← popMark; skipTok; pure e : PM σ Event) (SeenSome S x) (ErrIn S x) s := by
  rw [wp_bind]
  unfold wp popMark
  cases hk : s.marks with
  | nil => exact errIn_ub
  | cons m ms =>
    show wp (do skipTok; pure e : PM σ Event) _ _ _
    rw [wp_bind]
    refine pe_skipAs (t := t) (T := T) (hm.1.irrel rfl rfl) (by exact ha) ?_ hm.2.2 (by intro h; rw [h] at hc; cases hc) ?_
    · show ms = _
      unfold openStep
      rw [ho, hc]
      have := hm.2.1
      rw [hk] at this
      simp only [Bool.false_eq_true, if_false, if_true]
      rw [List.map_tail, ← this]; rfl
    · intro s' h'
      exact .inl ⟨_, h'⟩

/-- The errors in collections. -/
theorem pe_inColl {α : Type} {t : Token} {c p : String} {Q : α → PS σ → Prop} (hm : Seen S x T s) (ha : s.avail = some t)
    (hc : c ∈ ["while parsing a block collection", "while parsing a block mapping", "while parsing a flow sequence",
        "while parsing a flow mapping"]) :
    wp (do let m ← popMark; perrCtx c m p t.start : PM σ α) Q (ErrIn S x) s := by
  rw [wp_bind]
  unfold wp popMark
  cases hk : s.marks with
  | nil => exact errIn_ub
  | cons m ms =>
    have h2 := hm.2.1
    rw [hk] at h2
    cases ho : openColls T with
    | nil => rw [ho] at h2; cases h2
    | cons o r =>
      rw [ho] at h2
      have : m = o.start := (List.cons.inj h2).1
      subst this
      exact errIn_at hm ha (.collection ho hc)

theorem pe_enter {first : Bool} {Q : Unit → PS σ → Prop} (hm : Seen S x T s)
    (hf : first = true → ∃ t, s.avail = some t ∧ opensColl t.data = true)
    (h : ∀ T' s', Seen S x T' s' → Q () s') : wp (enterCollection S first) Q (ErrIn S x) s := by
  unfold enterCollection
  cases first with
  | false => exact h _ _ hm
  | true =>
    obtain ⟨t, ha, ho⟩ := hf rfl
    simp only [if_true]
    rw [wp_bind]
    apply wp_peekUnchecked (by rw [ha]; rfl)
    intro u hu
    rw [ha] at hu
    cases hu
    rw [wp_bind, wp_pushMark]
    refine pe_skipAs (t := t) (T := T) (hm.1.irrel rfl rfl) (by exact ha) ?_ hm.2.2 (by intro h; rw [h] at ho; cases ho) (fun s' h' => h _ _ h')
    show t.start :: s.marks = _
    unfold openStep
    rw [ho, if_pos rfl, hm.2.1]; rfl

theorem pe_empty {m : Mark} (h : Seen S x T s) : wp (emptyScalar m : PM σ Event) (SeenSome S x) (ErrIn S x) s := .inl ⟨T, h⟩

/-- A tag among the properties. -/
def TagIn (ps : List Token) : Option (Text × Text × Mark) → Prop
  | none => True
  | some (h, sf, m) => ∃ u ∈ ps, u.data = .tag h sf ∧ m = u.start

theorem pe_parseProps {t : Token} {Q : Props × Token → PS σ → Prop} (hm : Seen S x T s) (ha : s.avail = some t)
    (h : ∀ (s' : PS σ) (ps : List Token) (f t' : Token) (p : Props), Seen S x (T ++ ps) s' → s'.avail = some t' → PropToks ps →
      (ps ++ [t']).head? = some f → p.start = f.start → (p.tag.isSome = true → ps.head? = some f) → TagIn ps p.tag → Q (p, t') s') :
    wp (parseProps S t) Q (ErrIn S x) s := by
  unfold parseProps
  split
  next an heq =>
    rw [wp_bind]
    refine pe_skip hm ha (by rw [heq]; rfl) (by rw [heq]; exact ⟨rfl, by simp⟩) ?_
    intro s1 h1
    rw [wp_bind]
    apply pe_peek h1
    intro t2 s2 h2 a2
    split
    next hh sf heq2 =>
      rw [wp_bind]
      refine pe_skip h2 a2 (by rw [heq2]; rfl) (by rw [heq2]; exact ⟨rfl, by simp⟩) ?_
      intro s3 h3
      rw [wp_bind]
      apply pe_peek h3
      intro t3 s4 h4 a4
      rw [wp_pure]
      rw [List.append_assoc] at h4
      exact h s4 _ t t3 _ h4 a4 ⟨by simp [heq, heq2, isProperty], by simp⟩ rfl rfl (fun _ => rfl) ⟨t2, by simp, heq2, rfl⟩
    next =>
      rw [wp_pure]
      exact h s2 _ t t2 _ h2 a2 ⟨by simp [heq, isProperty], by simp⟩ rfl rfl (fun h => by cases h) trivial
  next hh sf heq =>
    rw [wp_bind]
    refine pe_skip hm ha (by rw [heq]; rfl) (by rw [heq]; exact ⟨rfl, by simp⟩) ?_
    intro s1 h1
    rw [wp_bind]
    apply pe_peek h1
    intro t2 s2 h2 a2
    split
    next an heq2 =>
      rw [wp_bind]
      refine pe_skip h2 a2 (by rw [heq2]; rfl) (by rw [heq2]; exact ⟨rfl, by simp⟩) ?_
      intro s3 h3
      rw [wp_bind]
      apply pe_peek h3
      intro t3 s4 h4 a4
      rw [wp_pure]
      rw [List.append_assoc] at h4
      exact h s4 _ t t3 _ h4 a4 ⟨by simp [heq, heq2, isProperty], by simp⟩ rfl rfl (fun _ => rfl) ⟨t, by simp, heq, rfl⟩
    next =>
      rw [wp_pure]
      exact h s2 _ t t2 _ h2 a2 ⟨by simp [heq, isProperty], by simp⟩ rfl rfl (fun _ => rfl) ⟨t, by simp, heq, rfl⟩
  next =>
    rw [wp_pure]
    exact h s [] t t _ (by simpa using hm) ha ⟨by simp, by simp⟩ rfl rfl (fun h => by cases h) trivial

theorem pe_checkLevel {Q : Unit → PS σ → Prop} {t f : Token} {ps A : List Token} {m : Mark} (hm : Seen S x T s) (ha : s.avail = some t)
    (hT : T = A ++ ps) (hp : PropToks ps) (hf : (ps ++ [t]).head? = some f) (hs : m = f.start) (h : Q () s) :
    wp (checkLevel S n m t.start) Q (ErrIn S x) s := by
  unfold wp checkLevel
  by_cases hc : (S.depth s.src : Int) < n
  · rw [if_pos hc]; exact h
  · rw [if_neg hc]; subst hs; exact errIn_at hm ha (.node hT hp hf (by simp))

theorem pe_nodeContent {block indentless : Bool} {p : Props} {tag : Option Text} {t f : Token} {ps A : List Token}
    (hm : Seen S x T s) (ha : s.avail = some t) (hT : T = A ++ ps) (hp : PropToks ps) (hf : (ps ++ [t]).head? = some f)
    (hs : p.start = f.start) : wp (nodeContent S n block indentless p tag t) (SeenSome S x) (ErrIn S x) s := by
  unfold nodeContent
  split
  next => rw [wp_bind, wp_setState, wp_pure]; exact .inl ⟨T, hm.irrel rfl rfl rfl⟩
  next =>
    split
    next v st heq =>
      rw [wp_bind]
      apply pe_popState
      intro q K
      rw [wp_bind]
      refine pe_skip (T := T) (t := t) (hm.irrel rfl rfl rfl) (by exact ha) (by rw [heq]; rfl) (by rw [heq]; exact ⟨rfl, by simp⟩) ?_
      intro s' h'
      exact .inl ⟨_, h'⟩
    next =>
      rw [wp_bind]
      refine pe_checkLevel hm ha hT hp hf hs ?_
      rw [wp_bind, wp_setState, wp_pure]; exact .inl ⟨T, hm.irrel rfl rfl rfl⟩
    next =>
      rw [wp_bind]
      refine pe_checkLevel hm ha hT hp hf hs ?_
      rw [wp_bind, wp_setState, wp_pure]; exact .inl ⟨T, hm.irrel rfl rfl rfl⟩
    next =>
      split
      next =>
        rw [wp_bind]
        refine pe_checkLevel hm ha hT hp hf hs ?_
        rw [wp_bind, wp_setState, wp_pure]; exact .inl ⟨T, hm.irrel rfl rfl rfl⟩
      next =>
        split
        next =>
          rw [wp_bind]
          refine pe_checkLevel hm ha hT hp hf hs ?_
          rw [wp_bind, wp_setState, wp_pure]; exact .inl ⟨T, hm.irrel rfl rfl rfl⟩
        next =>
          split
          next =>
            rw [wp_bind]
            apply pe_popState
            intro q K
            exact .inl ⟨T, hm.irrel rfl rfl rfl⟩
          next =>
            rw [hs]
            exact wp_pfail (errIn_at hm ha (.node hT hp hf (by split <;> simp)))

theorem pe_parseNode {block indentless : Bool} (hm : Seen S x T s) :
    wp (parseNode S n block indentless) (SeenSome S x) (ErrIn S x) s := by
  unfold parseNode
  rw [wp_bind]
  apply pe_peek hm
  intro t s1 h1 a1
  split
  next an heq =>
    rw [wp_bind]
    apply pe_popState
    intro q K
    rw [wp_bind]
    refine pe_skip (T := T) (t := t) (h1.irrel rfl rfl rfl) (by exact a1) (by rw [heq]; rfl) (by rw [heq]; exact ⟨rfl, by simp⟩) ?_
    intro s' h'
    exact .inl ⟨_, h'⟩
  next =>
    rw [wp_bind]
    apply pe_parseProps h1 a1
    intro s2 ps f t' p h2 a2 hp hf hs hhd htag
    simp only
    rw [wp_bind]
    unfold resolveTagM
    rw [wp_bind, wp_getTags]
    cases hr : resolveTag s2.tags p with
    | ok tag => exact pe_nodeContent h2 a2 rfl hp hf hs
    | error er =>
      show ErrIn S x er
      unfold resolveTag at hr
      cases ht : p.tag with
      | none => rw [ht] at hr; cases hr
      | some v =>
        obtain ⟨hh, sf, m⟩ := v
        rw [ht] at hr htag hhd
        obtain ⟨u, hu, hd, rfl⟩ := htag
        simp only at hr
        split at hr
        · cases hr
        · split at hr
          · cases hr
          · cases hr
            rw [hs]
            exact errIn_at h2 a2 (.tag rfl hp (hhd rfl) hu hd)

theorem pe_pushNode {block indentless : Bool} {q : PState} (hm : Seen S x T s) :
    wp (do pushState q; parseNode S n block indentless : PM σ Event) (SeenSome S x) (ErrIn S x) s := by
  rw [wp_bind, wp_pushState]
  exact pe_parseNode (hm.irrel rfl rfl rfl)

theorem pe_setEmpty {q : PState} {m : Mark} (hm : Seen S x T s) :
    wp (do setState q; emptyScalar m : PM σ Event) (SeenSome S x) (ErrIn S x) s := by
  rw [wp_bind, wp_setState]
  exact pe_empty (hm.irrel rfl rfl rfl)

theorem pe_endFlow {d : EvData} {t : Token} (hm : Seen S x T s) (ha : s.avail = some t) (ho : opensColl t.data = false)
    (hc : closesColl t.data = true) : wp (endFlow d t) (SeenSome S x) (ErrIn S x) s := by
  unfold endFlow
  rw [wp_bind]
  apply pe_popState
  intro q K
  exact pe_close (T := T) (hm.irrel rfl rfl rfl) (by exact ha) ho hc

theorem pe_blockSequenceEntry {first : Bool} (hm : Seen S x T s)
    (hf : first = true → ∃ t, s.avail = some t ∧ opensColl t.data = true) :
    wp (parseBlockSequenceEntry S n first) (SeenSome S x) (ErrIn S x) s := by
  unfold parseBlockSequenceEntry
  rw [wp_bind]
  apply pe_enter hm hf
  intro T1 s1 h1
  rw [wp_bind]
  apply pe_peek h1
  intro t s2 h2 a2
  split
  next heq =>
    rw [wp_bind]
    refine pe_skip h2 a2 (by rw [heq]; rfl) (by rw [heq]; exact ⟨rfl, by simp⟩) ?_
    intro s3 h3
    rw [wp_bind]
    apply pe_peek h3
    intro t2 s4 h4 a4
    split
    · exact pe_pushNode h4
    · exact pe_setEmpty h4
  next heq =>
    rw [wp_bind]
    apply pe_popState
    intro q K
    exact pe_close (T := T1) (h2.irrel rfl rfl rfl) (by exact a2) (by rw [heq]; rfl) (by rw [heq]; rfl)
  next => exact pe_inColl h2 a2 (by simp)

theorem pe_indentless (hm : Seen S x T s) : wp (parseIndentlessSequenceEntry S n) (SeenSome S x) (ErrIn S x) s := by
  unfold parseIndentlessSequenceEntry
  rw [wp_bind]
  apply pe_peek hm
  intro t s2 h2 a2
  split
  next heq =>
    rw [wp_bind]
    refine pe_skip h2 a2 (by rw [heq]; rfl) (by rw [heq]; exact ⟨rfl, by simp⟩) ?_
    intro s3 h3
    rw [wp_bind]
    apply pe_peek h3
    intro t2 s4 h4 a4
    split
    · exact pe_pushNode h4
    · exact pe_setEmpty h4
  next =>
    rw [wp_bind]
    apply pe_popState
    intro q K
    exact .inl ⟨T, h2.irrel rfl rfl rfl⟩

theorem pe_blockMappingKey {first : Bool} (hm : Seen S x T s)
    (hf : first = true → ∃ t, s.avail = some t ∧ opensColl t.data = true) :
    wp (parseBlockMappingKey S n first) (SeenSome S x) (ErrIn S x) s := by
  unfold parseBlockMappingKey
  rw [wp_bind]
  apply pe_enter hm hf
  intro T1 s1 h1
  rw [wp_bind]
  apply pe_peek h1
  intro t s2 h2 a2
  split
  next heq =>
    rw [wp_bind]
    refine pe_skip h2 a2 (by rw [heq]; rfl) (by rw [heq]; exact ⟨rfl, by simp⟩) ?_
    intro s3 h3
    rw [wp_bind]
    apply pe_peek h3
    intro t2 s4 h4 a4
    split
    · exact pe_pushNode h4
    · exact pe_setEmpty h4
  next heq =>
    rw [wp_bind]
    apply pe_popState
    intro q K
    exact pe_close (T := T1) (h2.irrel rfl rfl rfl) (by exact a2) (by rw [heq]; rfl) (by rw [heq]; rfl)
  next => exact pe_inColl h2 a2 (by simp)

theorem pe_blockMappingValue (hm : Seen S x T s) : wp (parseBlockMappingValue S n) (SeenSome S x) (ErrIn S x) s := by
  unfold parseBlockMappingValue
  rw [wp_bind]
  apply pe_peek hm
  intro t s2 h2 a2
  split
  next heq =>
    rw [wp_bind]
    refine pe_skip h2 a2 (by rw [heq]; rfl) (by rw [heq]; exact ⟨rfl, by simp⟩) ?_
    intro s3 h3
    rw [wp_bind]
    apply pe_peek h3
    intro t2 s4 h4 a4
    split
    · exact pe_pushNode h4
    · exact pe_setEmpty h4
  next => exact pe_setEmpty h2

theorem pe_separator {first : Bool} {t : Token} {c p : String} {Q : Token → PS σ → Prop} (hm : Seen S x T s) (ha : s.avail = some t)
    (hc : c ∈ ["while parsing a block collection", "while parsing a block mapping", "while parsing a flow sequence",
        "while parsing a flow mapping"])
    (h : ∀ T' t' s', Seen S x T' s' → s'.avail = some t' → Q t' s') : wp (flowSeparator S first t c p) Q (ErrIn S x) s := by
  unfold flowSeparator
  split
  next => exact h _ _ _ hm ha
  next =>
    split
    next heq =>
      rw [wp_bind]
      refine pe_skip hm ha (by rw [heq]; rfl) (by rw [heq]; exact ⟨rfl, by simp⟩) ?_
      intro s3 h3
      exact pe_peek h3 (fun t' s' h' a' => h _ t' s' h' a')
    next => exact pe_inColl hm ha hc

theorem pe_flowSequenceEntry {first : Bool} (hm : Seen S x T s)
    (hf : first = true → ∃ t, s.avail = some t ∧ opensColl t.data = true) :
    wp (parseFlowSequenceEntry S n first) (SeenSome S x) (ErrIn S x) s := by
  unfold parseFlowSequenceEntry
  rw [wp_bind]
  apply pe_enter hm hf
  intro T1 s1 h1
  rw [wp_bind]
  apply pe_peek h1
  intro t s2 h2 a2
  split
  next =>
    rw [wp_bind]
    apply pe_separator h2 a2 (by simp)
    intro T3 t3 s3 h3 a3
    split
    next heq =>
      rw [wp_bind, wp_setState, wp_bind]
      refine pe_skip (T := T3) (t := t3) (h3.irrel rfl rfl rfl) (by exact a3) (by rw [heq]; rfl) (by rw [heq]; exact ⟨rfl, by simp⟩) ?_
      intro s' h'
      exact .inl ⟨_, h'⟩
    next =>
      split
      next => exact pe_pushNode h3
      next heq =>
        have heq := Decidable.not_not.mp heq
        exact pe_endFlow h3 a3 (by rw [heq]; rfl) (by rw [heq]; rfl)
  next heq =>
    have heq := Decidable.not_not.mp heq
    exact pe_endFlow h2 a2 (by rw [heq]; rfl) (by rw [heq]; rfl)

theorem pe_fseKey (hm : Seen S x T s) : wp (parseFlowSequenceEntryMappingKey S n) (SeenSome S x) (ErrIn S x) s := by
  unfold parseFlowSequenceEntryMappingKey
  rw [wp_bind]
  apply pe_peek hm
  intro t s2 h2 a2
  split
  next => exact pe_pushNode h2
  next hne =>
    split
    next => exact pe_setEmpty h2
    next hns =>
      have hd : t.data = .value ∨ t.data = .flowEntry := by
        by_cases h1 : t.data = .value
        · exact .inl h1
        · by_cases h3 : t.data = .flowEntry
          · exact .inr h3
          · exact absurd ⟨h1, h3, hns⟩ hne
      rw [wp_bind]
      refine pe_skip h2 a2 (by rcases hd with h | h <;> rw [h] <;> rfl) (by rcases hd with h | h <;> rw [h] <;> exact ⟨rfl, by simp⟩) ?_
      intro s3 h3
      exact pe_setEmpty h3

theorem pe_fseValue (hm : Seen S x T s) : wp (parseFlowSequenceEntryMappingValue S n) (SeenSome S x) (ErrIn S x) s := by
  unfold parseFlowSequenceEntryMappingValue
  rw [wp_bind]
  apply pe_peek hm
  intro t s2 h2 a2
  split
  next heq =>
    rw [wp_bind]
    refine pe_skip h2 a2 (by rw [heq]; rfl) (by rw [heq]; exact ⟨rfl, by simp⟩) ?_
    intro s3 h3
    rw [wp_bind]
    apply pe_peek h3
    intro t2 s4 h4 a4
    split
    · exact pe_pushNode h4
    · exact pe_setEmpty h4
  next => exact pe_setEmpty h2

theorem pe_fseEnd (hm : Seen S x T s) : wp (parseFlowSequenceEntryMappingEnd S) (SeenSome S x) (ErrIn S x) s := by
  unfold parseFlowSequenceEntryMappingEnd
  rw [wp_bind]
  apply pe_peek hm
  intro t s2 h2 a2
  rw [wp_bind, wp_setState, wp_pure]
  exact .inl ⟨T, h2.irrel rfl rfl rfl⟩

theorem pe_flowMappingKey {first : Bool} (hm : Seen S x T s)
    (hf : first = true → ∃ t, s.avail = some t ∧ opensColl t.data = true) :
    wp (parseFlowMappingKey S n first) (SeenSome S x) (ErrIn S x) s := by
  unfold parseFlowMappingKey
  rw [wp_bind]
  apply pe_enter hm hf
  intro T1 s1 h1
  rw [wp_bind]
  apply pe_peek h1
  intro t s2 h2 a2
  split
  next =>
    rw [wp_bind]
    apply pe_separator h2 a2 (by simp)
    intro T3 t3 s3 h3 a3
    split
    next heq =>
      rw [wp_bind]
      refine pe_skip h3 a3 (by rw [heq]; rfl) (by rw [heq]; exact ⟨rfl, by simp⟩) ?_
      intro s4 h4
      rw [wp_bind]
      apply pe_peek h4
      intro t2 s5 h5 a5
      split
      · exact pe_pushNode h5
      · exact pe_setEmpty h5
    next =>
      split
      next => exact pe_pushNode h3
      next heq =>
        have heq := Decidable.not_not.mp heq
        exact pe_endFlow h3 a3 (by rw [heq]; rfl) (by rw [heq]; rfl)
  next heq =>
    have heq := Decidable.not_not.mp heq
    exact pe_endFlow h2 a2 (by rw [heq]; rfl) (by rw [heq]; rfl)

theorem pe_flowMappingValue {empty : Bool} (hm : Seen S x T s) :
    wp (parseFlowMappingValue S n empty) (SeenSome S x) (ErrIn S x) s := by
  unfold parseFlowMappingValue
  rw [wp_bind]
  apply pe_peek hm
  intro t s2 h2 a2
  split
  next => exact pe_setEmpty h2
  next =>
    split
    next heq =>
      rw [wp_bind]
      refine pe_skip h2 a2 (by rw [heq]; rfl) (by rw [heq]; exact ⟨rfl, by simp⟩) ?_
      intro s3 h3
      rw [wp_bind]
      apply pe_peek h3
      intro t2 s4 h4 a4
      split
      · exact pe_pushNode h4
      · exact pe_setEmpty h4
    next => exact pe_setEmpty h2

theorem pe_appendTagM {Q : Unit → PS σ → Prop} {v : TagDir} {b : Bool} {t : Token} (hm : Seen S x T s) (ha : s.avail = some t)
    (h : ∀ s', Seen S x T s' → s'.avail = some t → Q () s') : wp (appendTagM v b t.start) Q (ErrIn S x) s :=
  wp_appendTagM (fun _ => errIn_at hm ha .plain) fun _ => h _ (hm.irrel rfl rfl rfl) ha

theorem pe_directivesLoop (fuel : Nat) {v : Option Version} {ts : List TagDir} {Q : Option Version × List TagDir → PS σ → Prop}
    (hm : Seen S x T s) (h : ∀ r T' s', Seen S x T' s' → Q r s') : wp (directivesLoop S fuel v ts) Q (ErrIn S x) s := by
  induction fuel generalizing T s v ts with
  | zero => exact wp_pfail (.inr (.inl fun h => h))
  | succ fuel ih =>
    unfold directivesLoop
    rw [wp_bind]
    apply pe_peek hm
    intro t s1 h1 a1
    split
    next w heq =>
      split
      · exact pe_perr h1 a1
      · split
        · exact pe_perr h1 a1
        · rw [wp_bind]
          refine pe_skip h1 a1 (by rw [heq]; rfl) (by rw [heq]; exact ⟨rfl, by simp⟩) ?_
          intro s2 h2
          exact ih h2
    next d heq =>
      rw [wp_bind]
      apply pe_appendTagM h1 a1
      intro s2 h2 a2
      rw [wp_bind]
      refine pe_skip h2 a2 (by rw [heq]; rfl) (by rw [heq]; exact ⟨rfl, by simp⟩) ?_
      intro s3 h3
      exact ih h3
    next => exact h _ _ _ h1

theorem pe_processDirectives (fuel : Nat) {Q : Option Version × List TagDir → PS σ → Prop} (hm : Seen S x T s)
    (h : ∀ r T' s', Seen S x T' s' → Q r s') : wp (processDirectives S fuel) Q (ErrIn S x) s := by
  unfold processDirectives
  rw [wp_bind]
  apply pe_directivesLoop fuel hm
  intro r T1 s1 h1
  rw [wp_bind]
  apply pe_peek h1
  intro t s2 h2 a2
  rw [wp_bind]
  apply pe_appendTagM h2 a2
  intro s3 h3 a3
  rw [wp_bind]
  apply pe_appendTagM h3 a3
  intro s4 h4 a4
  exact h _ _ _ h4

theorem pe_skipDocumentEnds (fuel : Nat) {Q : Unit → PS σ → Prop} (hm : Seen S x T s) (h : ∀ T' s', Seen S x T' s' → Q () s') :
    wp (skipDocumentEnds S fuel) Q (ErrIn S x) s := by
  induction fuel generalizing T s with
  | zero => exact wp_pfail (.inr (.inl fun h => h))
  | succ fuel ih =>
    unfold skipDocumentEnds
    rw [wp_bind]
    apply pe_peek hm
    intro t s1 h1 a1
    split
    next heq =>
      rw [wp_bind]
      refine pe_skip h1 a1 (by rw [heq]; rfl) (by rw [heq]; exact ⟨rfl, by simp⟩) ?_
      intro s2 h2
      exact ih h2
    next => exact h _ _ h1

theorem pe_documentStart (fuel : Nat) {implicit : Bool} (hm : Seen S x T s) :
    wp (parseDocumentStart S fuel implicit) (SeenSome S x) (ErrIn S x) s := by
  have body : ∀ {s1 : PS σ} {T : List Token}, Seen S x T s1 →
      wp (do
        let token ← peek S
        if implicit && !token.data.startsDocument then
          let _ ← processDirectives S fuel
          pushState .documentEnd
          setState .blockNode
          pure { data := .documentStart none [] true, start := token.start, stop := token.start }
        else if token.data ≠ .streamEnd then
          let start := token.start
          let (version, tags) ← processDirectives S fuel
          let token ← peek S
          if token.data = .documentStart then
            pushState .documentEnd
            setState .documentContent
            skipTok
            pure { data := .documentStart version tags false, start := start, stop := token.stop }
          else perr "did not find expected <document start>" token.start
        else
          setState .done
          skipTok
          pure { data := .streamEnd, start := token.start, stop := token.stop } : PM σ Event) (SeenSome S x) (ErrIn S x) s1 := by
    intro s1 T h1
    rw [wp_bind]
    apply pe_peek h1
    intro t s2 h2 a2
    split
    next =>
      rw [wp_bind]
      apply pe_processDirectives fuel h2
      intro r T3 s3 h3
      rw [wp_bind, wp_pushState, wp_bind, wp_setState, wp_pure]
      exact .inl ⟨T3, h3.irrel rfl rfl rfl⟩
    next =>
      split
      next =>
        rw [wp_bind]
        apply pe_processDirectives fuel h2
        intro r T3 s3 h3
        rw [wp_bind]
        apply pe_peek h3
        intro t4 s4 h4 a4
        split
        next heq =>
          rw [wp_bind, wp_pushState, wp_bind, wp_setState, wp_bind]
          refine pe_skip (T := T3) (t := t4) (h4.irrel rfl rfl rfl) (by exact a4) (by rw [heq]; rfl) (by rw [heq]; exact ⟨rfl, by simp⟩) ?_
          intro s' h'
          exact .inl ⟨_, h'⟩
        next => exact pe_perr h4 a4
      next heq =>
        have heq := Decidable.not_not.mp heq
        rw [wp_bind, wp_setState, wp_bind]
        unfold wp skipTok
        rw [show ({ s2 with state := .done } : PS σ).avail = some t from a2]
        exact .inr rfl
  unfold parseDocumentStart
  cases implicit with
  | true =>
    simp only [Bool.not_true, Bool.false_eq_true, if_false]
    exact body hm
  | false =>
    simp only [Bool.not_false, if_true]
    rw [wp_bind]
    apply pe_skipDocumentEnds fuel hm
    intro T1 s1 h1
    exact body h1

theorem pe_documentContent (hm : Seen S x T s) : wp (parseDocumentContent S n) (SeenSome S x) (ErrIn S x) s := by
  unfold parseDocumentContent
  rw [wp_bind]
  apply pe_peek hm
  intro t s2 h2 a2
  split
  next =>
    rw [wp_bind]
    apply pe_popState
    intro q K
    exact pe_empty (h2.irrel rfl rfl rfl)
  next => exact pe_parseNode h2

theorem pe_documentEnd (hm : Seen S x T s) : wp (parseDocumentEnd S) (SeenSome S x) (ErrIn S x) s := by
  unfold parseDocumentEnd
  rw [wp_bind]
  apply pe_peek hm
  intro t s2 h2 a2
  split
  next heq =>
    rw [wp_bind]
    refine pe_skip h2 a2 (by rw [heq]; rfl) (by rw [heq]; exact ⟨rfl, by simp⟩) ?_
    intro s3 h3
    rw [wp_bind, wp_setTags, wp_bind, wp_setState, wp_pure]
    exact .inl ⟨_, h3.irrel rfl rfl rfl⟩
  next =>
    rw [wp_bind, wp_setTags, wp_bind, wp_setState, wp_pure]
    exact .inl ⟨_, h2.irrel rfl rfl rfl⟩

theorem pe_streamStart (hm : Seen S x T s) : wp (parseStreamStart S) (SeenSome S x) (ErrIn S x) s := by
  unfold parseStreamStart
  rw [wp_bind]
  apply pe_peek hm
  intro t s2 h2 a2
  split
  next enc heq =>
    rw [wp_bind, wp_setState, wp_bind]
    refine pe_skip (T := T) (t := t) (h2.irrel rfl rfl rfl) (by exact a2) (by rw [heq]; rfl) (by rw [heq]; exact ⟨rfl, by simp⟩) ?_
    intro s' h'
    exact .inl ⟨_, h'⟩
  next => exact pe_perr h2 a2

/-- One call of the state machine. -/
theorem pe_stateMachine (fuel : Nat) {c : List Coll} {st : Stage} (hi : PosInv c st s) (hm : Seen S x T s) :
    wp (stateMachine S n fuel) (SeenSome S x) (ErrIn S x) s := by
  have hf : s.state.isFirst = true → ∃ t, s.avail = some t ∧ opensColl t.data = true := fun h => (stage_first hi.stage h).2
  unfold wp stateMachine
  cases hst : s.state <;> rw [hst] at hf <;> simp only
  · exact pe_streamStart hm
  · exact pe_documentStart fuel hm
  · exact pe_documentStart fuel hm
  · exact pe_documentContent hm
  · exact pe_documentEnd hm
  · exact pe_parseNode hm
  · exact pe_blockSequenceEntry hm (fun _ => hf rfl)
  · exact pe_blockSequenceEntry (first := false) hm (fun h => by cases h)
  · exact pe_indentless hm
  · exact pe_blockMappingKey hm (fun _ => hf rfl)
  · exact pe_blockMappingKey (first := false) hm (fun h => by cases h)
  · exact pe_blockMappingValue hm
  · exact pe_flowSequenceEntry hm (fun _ => hf rfl)
  · exact pe_flowSequenceEntry (first := false) hm (fun h => by cases h)
  · exact pe_fseKey hm
  · exact pe_fseValue hm
  · exact pe_fseEnd hm
  · exact pe_flowMappingKey hm (fun _ => hf rfl)
  · exact pe_flowMappingKey (first := false) hm (fun h => by cases h)
  · exact pe_flowMappingValue hm
  · exact pe_flowMappingValue hm
  · exact errIn_ub

end rules

/-- Any number of calls. -/
theorem pe_run {S : TokSrc σ} {n : Int} {fuel k : Nat} {x : σ} {c : List Coll} {st : Stage} {p p' : Parser σ} {os : List POut}
    (hi : PosInv c st p.st) (hm : (∃ T, Seen S x T p.st) ∨ p.st.state = .done) (he : ∀ er, p.error = some er → ErrIn S x er ∧ er.reported)
    (h : parseN S n fuel k p = .ok (os, p')) : ∀ er, p'.error = some er → ErrIn S x er ∧ er.reported := by
  induction k generalizing c st p os with
  | zero => cases h; exact he
  | succ k ih =>
    unfold parseN at h
    cases hp : parse S n fuel p with
    | error e => rw [hp] at h; cases h
    | ok r =>
      obtain ⟨o, p1⟩ := r
      rw [hp] at h
      simp only at h
      cases hn : parseN S n fuel k p1 with
      | error e => rw [hn] at h; cases h
      | ok r2 =>
        obtain ⟨os2, p2⟩ := r2
        rw [hn] at h
        cases h
        unfold parse at hp
        split at hp
        · cases hp
          exact ih hi hm he hn
        · rename_i hcond
          rcases hm with ⟨T, hm⟩ | hm
          case inr => exact absurd (by simp [hm]) hcond
          have k1 := pe_stateMachine (n := n) fuel hi hm
          have k2 := pk_stateMachine (S := S) (n := n) fuel hi
          unfold wp at k1 k2
          cases hs : stateMachine S n fuel p.st with
          | ok v =>
            obtain ⟨e, s1⟩ := v
            rw [hs] at hp k1 k2
            cases hp
            obtain ⟨_, st1, _, _, _, h2⟩ := k2
            exact ih (p := { p with st := s1 }) h2 k1 he hn
          | error er =>
            rw [hs] at hp k1
            have k1 : ErrIn S x er := k1
            have go : er.reported → p1 = { p with error := some er } → ∀ er', p'.error = some er' → ErrIn S x er' ∧ er'.reported := by
              intro h1 h2
              subst h2
              exact ih (p := { p with error := some er }) hi (.inl ⟨T, hm⟩) (fun er' h => by cases h; exact ⟨k1, h1⟩) hn
            cases er <;> first | (cases hp; done) | (cases hp; exact go trivial rfl)

/-! ### The loader -/

section loader
variable {S : TokSrc σ} {n : Int} {fuel : Nat} {room : Nat → Bool} {x : σ}

/-- What has gone wrong when loading from `x` has failed: parsing, memory, or an event that the loader rejects. -/
def LoadErr (S : TokSrc σ) (n : Int) (fuel : Nat) (x : σ) (er : Fail) : Prop :=
  (∃ w q r, Evs S n fuel (Parser.init x) w q ∧ parse S n fuel q = .ok (.failed, r) ∧ r.error = some er) ∨ er = .memory ∨
    ∃ A ds B e q c cm pr pm, Evs S n fuel (Parser.init x) (A ++ ds :: B ++ [e]) q ∧
      (∃ v ts i, ds.data = .documentStart v ts i) ∧ (∀ b ∈ B, ofNode b.data = true) ∧ er = .composer c cm pr pm ∧
      ComposeErr B e c cm pr pm

/-- The anchors known are those given by the events. -/
def AnchorsKnown (w : List Event) (s : CState) : Prop :=
  s.aliases.map (fun d => (d.anchor, d.mark)) = w.filterMap fun e => (anchorGiven e.data).map (·, e.start)

theorem nodeAdd_aliases {i : Nat} {s s' : CState} (h : nodeAdd room i s = .ok s') : s'.aliases = s.aliases := by
  unfold nodeAdd at h
  split at h
  · cases h; rfl
  · split at h
    · cases h
    · split at h
      · cases h; rfl
      · cases h

theorem nodeAdd_error {i : Nat} {s : CState} {er : Fail} (h : nodeAdd room i s = .error er) : er = .ub ∨ er = .memory := by
  unfold nodeAdd at h
  split at h
  · cases h
  · split at h
    · cases h; exact .inl rfl
    · rename_i parent _
      split at h
      · cases h
      · rename_i e he
        cases h
        unfold addChild at he
        split at he
        · split at he
          · cases he
          · cases he; exact .inr rfl
        · split at he
          · cases he
          · rename_i e1 he1
            cases he
            unfold addToPairs at he1
            split at he1
            · split at he1
              · cases he1
              · split at he1
                · cases he1
                · cases he1; exact .inr rfl
            · split at he1
              · cases he1
              · cases he1; exact .inr rfl
        · cases he; exact .inl rfl

theorem known_anchors_find {w : List Event} {s : CState} (h : AnchorsKnown w s) {a : Text} {d : AliasData}
    (hf : s.aliases.find? (fun d => d.anchor == a) = some d) : ∃ e ∈ w, anchorGiven e.data = some a ∧ d.mark = e.start := by
  have h1 := List.mem_of_find?_eq_some hf
  have h2 : d.anchor = a := by simpa using List.find?_some hf
  have h3 : (a, d.mark) ∈ w.filterMap fun e => (anchorGiven e.data).map (·, e.start) := by
    rw [← h, ← h2]; exact List.mem_map_of_mem h1
  obtain ⟨e, he, hm⟩ := List.mem_filterMap.mp h3
  cases hg : anchorGiven e.data with
  | none => rw [hg] at hm; cases hm
  | some b =>
    rw [hg] at hm
    simp only [Option.map_some, Option.some.injEq, Prod.mk.injEq] at hm
    exact ⟨e, he, by rw [hg, hm.1], hm.2.symm⟩

theorem known_anchors_none {w : List Event} {s : CState} (h : AnchorsKnown w s) {a : Text} (hf : s.aliases.find? (fun d => d.anchor == a) = none) :
    ∀ e ∈ w, anchorGiven e.data ≠ some a := by
  intro e he hg
  have : (a, e.start) ∈ s.aliases.map (fun d => (d.anchor, d.mark)) := by
    rw [h]; exact List.mem_filterMap.mpr ⟨e, he, by rw [hg]; rfl⟩
  obtain ⟨d, hd, hx⟩ := List.mem_map.mp this
  have := List.find?_eq_none.mp hf d hd
  simp only [Prod.mk.injEq] at hx
  rw [hx.1] at this
  simp at this

theorem known_anchors_snoc {w : List Event} {s s' : CState} {e : Event} (h : AnchorsKnown w s) (hg : anchorGiven e.data = none) (hs : s'.aliases = s.aliases) :
    AnchorsKnown (w ++ [e]) s' := by
  unfold AnchorsKnown at *
  rw [hs, h, List.filterMap_append]
  simp [hg]

theorem addNode_known_anchors {w : List Event} {s s' : CState} {e : Event} {nd : Node} {a : Option Text} {b : Bool} (h : AnchorsKnown w s)
    (hg : anchorGiven e.data = a) (hn : nd.start = e.start) (hs : addNode room nd a b s = .ok s') : AnchorsKnown (w ++ [e]) s' := by
  unfold addNode at hs
  split at hs
  case isFalse => cases hs
  simp only at hs
  split at hs
  · cases hs
  · rename_i as has
    split at hs
    · cases hs
    · rename_i s1 hs1
      have e1 := nodeAdd_aliases hs1
      have e2 : s'.aliases = s1.aliases := by
        split at hs
        · split at hs
          · cases hs; rfl
          · cases hs
        · cases hs; rfl
      have e3 : s'.aliases = as := by rw [e2, e1]
      unfold AnchorsKnown at *
      rw [e3, List.filterMap_append, ← h]
      unfold registerAnchor at has
      split at has
      · cases has; simp [hg]
      · split at has
        · cases has
        · cases has; simp [hg, hn]

theorem addNode_error {w : List Event} {s : CState} {e : Event} {nd : Node} {a : Option Text} {b : Bool} {er : Fail} (h : AnchorsKnown w s)
    (hg : anchorGiven e.data = a) (hn : nd.start = e.start) (hs : addNode room nd a b s = .error er) :
    er = .ub ∨ er = .memory ∨ ∃ c cm pr pm, er = .composer c cm pr pm ∧ ComposeErr w e c cm pr pm := by
  unfold addNode at hs
  split at hs
  case isFalse => cases hs; exact .inr (.inl rfl)
  simp only at hs
  split at hs
  · rename_i e1 he1
    cases hs
    unfold registerAnchor at he1
    split at he1
    · cases he1
    · split at he1
      · rename_i a d hd
        cases he1
        obtain ⟨d', h1, h2, h3⟩ := known_anchors_find h hd
        rw [h3, hn]
        exact .inr (.inr ⟨_, _, _, _, rfl, .duplicate hg h1 h2⟩)
      · cases he1
  · split at hs
    · rename_i e1 he1
      cases hs
      rcases nodeAdd_error he1 with h | h
      · exact .inl h
      · exact .inr (.inl h)
    · split at hs
      · split at hs
        · cases hs
        · cases hs; exact .inr (.inl rfl)
      · cases hs

/-- One event. -/
theorem compose_known_anchors {w : List Event} {s s' : CState} {e : Event} (h : AnchorsKnown w s) (hs : composeEvent room e s = .ok s') :
    AnchorsKnown (w ++ [e]) s' ∧ ofNode e.data = true := by
  have close : ∀ {k : NodeData → Bool} {m : Mark}, closeNode k m s = .ok s' → s'.aliases = s.aliases := by
    intro k m hc
    unfold closeNode at hc
    split at hc
    · cases hc
    · split at hc
      · cases hc
      · split at hc
        · cases hc; rfl
        · cases hc
  unfold composeEvent at hs
  split at hs <;> rename_i heq
  · unfold loadAlias at hs
    split at hs
    · exact ⟨known_anchors_snoc h (by rw [heq]; rfl) (nodeAdd_aliases hs), by rw [heq]; rfl⟩
    · cases hs
  · exact ⟨addNode_known_anchors h (by rw [heq]; rfl) rfl hs, by rw [heq]; rfl⟩
  · exact ⟨addNode_known_anchors h (by rw [heq]; rfl) rfl hs, by rw [heq]; rfl⟩
  · exact ⟨known_anchors_snoc h (by rw [heq]; rfl) (close hs), by rw [heq]; rfl⟩
  · exact ⟨addNode_known_anchors h (by rw [heq]; rfl) rfl hs, by rw [heq]; rfl⟩
  · exact ⟨known_anchors_snoc h (by rw [heq]; rfl) (close hs), by rw [heq]; rfl⟩
  · cases hs

theorem compose_error {w : List Event} {s : CState} {e : Event} {er : Fail} (h : AnchorsKnown w s) (hs : composeEvent room e s = .error er) :
    er = .ub ∨ er = .memory ∨ ∃ c cm pr pm, er = .composer c cm pr pm ∧ ComposeErr w e c cm pr pm := by
  have close : ∀ {k : NodeData → Bool} {m : Mark}, closeNode k m s = .error er → er = .ub := by
    intro k m hc
    unfold closeNode at hc
    split at hc
    · cases hc; rfl
    · split at hc
      · cases hc; rfl
      · split at hc
        · cases hc
        · cases hc; rfl
  unfold composeEvent at hs
  split at hs <;> rename_i heq
  · unfold loadAlias at hs
    split at hs
    · rcases nodeAdd_error hs with h | h
      · exact .inl h
      · exact .inr (.inl h)
    · rename_i hf
      cases hs
      exact .inr (.inr ⟨_, _, _, _, rfl, .undefined heq (known_anchors_none h hf)⟩)
  · exact addNode_error h (by rw [heq]; rfl) rfl hs
  · exact addNode_error h (by rw [heq]; rfl) rfl hs
  · exact .inl (close hs)
  · exact addNode_error h (by rw [heq]; rfl) rfl hs
  · exact .inl (close hs)
  · cases hs; exact .inl rfl

theorem parse_event_error {p q : Parser σ} {e : Event} (h : parse S n fuel p = .ok (.event e, q)) : q.error = p.error := by
  unfold parse at h
  split at h
  · cases h
  · split at h <;> cases h
    rfl

/-- Between two calls of `yaml_parser_load`. -/
def LoadState (S : TokSrc σ) (n : Int) (fuel : Nat) (x : σ) (p : Parser σ) : Prop :=
  (∃ w, Evs S n fuel (Parser.init x) w p) ∧ p.error = none ∨ ∃ er, p.error = some er ∧ LoadErr S n fuel x er

theorem Evs.snoc {p q r : Parser σ} {w : List Event} {e : Event} (h : Evs S n fuel p w q) (hp : parse S n fuel q = .ok (.event e, r)) :
    Evs S n fuel p (w ++ [e]) r := h.append (.one hp)

theorem parse_failed_error {w : List Event} {q r : Parser σ} (h : Evs S n fuel (Parser.init x) w q) (hp : parse S n fuel q = .ok (.failed, r)) :
    LoadState S n fuel x r := by
  have : ∃ er, r.error = some er := by
    unfold parse at hp
    split at hp
    · cases hp
    · split at hp <;> cases hp
      exact ⟨_, rfl⟩
  obtain ⟨er, her⟩ := this
  exact .inr ⟨er, her, .inl ⟨w, q, r, h, hp, her⟩⟩

theorem loadNodes_errors {A B : List Event} {ds : Event} {k : Nat} {s : CState} {p r : Parser σ} {o : NOut}
    (hd : ∃ v ts i, ds.data = .documentStart v ts i) (hw : Evs S n fuel (Parser.init x) (A ++ ds :: B) p) (he : p.error = none)
    (hB : ∀ b ∈ B, ofNode b.data = true) (hk : AnchorsKnown B s) (h : loadNodes room S n fuel k s p = .ok (o, r)) :
    LoadState S n fuel x r := by
  induction k generalizing B s p with
  | zero => cases h
  | succ k ih =>
    unfold loadNodes at h
    split at h
    · cases h
    · rename_i q hp
      cases h
      exact parse_failed_error hw hp
    · cases h
    · rename_i e q hp
      have hq := parse_event_error hp
      have hw' := hw.snoc hp
      split at h
      · cases h
        exact .inl ⟨⟨_, hw'⟩, by rw [hq, he]⟩
      · split at h
        · rename_i s1 hs1
          obtain ⟨k1, k2⟩ := compose_known_anchors hk hs1
          refine ih (B := B ++ [e]) (by simpa using hw') (by rw [hq, he]) ?_ k1 h
          intro b hb
          rcases List.mem_append.mp hb with hb | hb
          · exact hB b hb
          · simp at hb; rw [hb]; exact k2
        · cases h
        · rename_i err hne hs1
          cases h
          rcases compose_error hk hs1 with rfl | rfl | ⟨c, cm, pr, pm, rfl, hc⟩
          · exact (hne rfl).elim
          · exact .inr ⟨_, rfl, .inr (.inl rfl)⟩
          · exact .inr ⟨_, rfl, .inr (.inr ⟨A, ds, B, e, q, c, cm, pr, pm, by simpa using hw', hd, hB, rfl, hc⟩)⟩

theorem loadRest_errors {k : Nat} {w : List Event} {p r : Parser σ} {o : LOut} (hw : Evs S n fuel (Parser.init x) w p)
    (he : p.error = none) (h : loadRest room S n fuel k p = .ok (o, r)) : LoadState S n fuel x r := by
  unfold loadRest at h
  split at h
  · cases h; exact .inl ⟨⟨w, hw⟩, he⟩
  · split at h
    · cases h
    · rename_i q hp
      cases h
      exact parse_failed_error hw hp
    · cases h
    · rename_i e q hp
      have hq := parse_event_error hp
      have hw' := hw.snoc hp
      split at h
      · cases h
        exact .inl ⟨⟨_, hw'⟩, by rw [hq, he]⟩
      · unfold loadDocument at h
        split at h
        · rename_i v ts i hd
          cases hl : loadNodes room S n fuel k {} q with
          | error err => rw [hl] at h; cases h
          | ok v =>
            obtain ⟨o', r'⟩ := v
            have hr : r' = r := by
              rw [hl] at h
              cases o' <;> cases h <;> rfl
            subst hr
            exact loadNodes_errors (A := w) (B := []) ⟨_, _, _, hd⟩ (by simpa using hw') (by rw [hq, he]) (by simp) (by rfl : AnchorsKnown [] ({} : CState)) hl
        · cases h

theorem load_errors {k : Nat} {p r : Parser σ} {o : LOut} (hp : LoadState S n fuel x p)
    (h : load room S n fuel k p = .ok (o, r)) : LoadState S n fuel x r := by
  rcases hp with ⟨⟨w, hw⟩, he⟩ | ⟨er, he, hl⟩
  · unfold load at h
    split at h
    · split at h
      · cases h
      · rename_i q hp
        cases h
        exact parse_failed_error hw hp
      · cases h
      · rename_i e q hp
        have hq := parse_event_error hp
        split at h
        · exact loadRest_errors (hw.snoc hp) (by rw [hq, he]) h
        · cases h
    · exact loadRest_errors hw he h
  · have hpn : parse S n fuel p = .ok (.noEvent, p) := by
      unfold parse; rw [if_pos (by simp [he])]
    have hr : r = p := by
      unfold load at h
      split at h
      · rw [hpn] at h; cases h
      · unfold loadRest at h
        split at h
        · cases h; rfl
        · rw [hpn] at h; cases h
    rw [hr]
    exact .inr ⟨er, he, hl⟩

theorem loadN_errors {k m : Nat} {p r : Parser σ} {os : List LOut} (hp : LoadState S n fuel x p)
    (h : loadN room S n fuel m k p = .ok (os, r)) : LoadState S n fuel x r := by
  induction k generalizing p os with
  | zero => cases h; exact hp
  | succ k ih =>
    unfold loadN at h
    cases hl : load room S n fuel m p with
    | error e => rw [hl] at h; cases h
    | ok v =>
      obtain ⟨o, p1⟩ := v
      rw [hl] at h
      simp only at h
      cases hn : loadN room S n fuel m k p1 with
      | error e => rw [hn] at h; cases h
      | ok v2 =>
        obtain ⟨os2, p2⟩ := v2
        rw [hn] at h
        cases h
        exact ih (load_errors hp hl) hn

end loader

end LibYaml
