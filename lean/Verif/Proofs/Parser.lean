import Verif.Model.Parser
import Verif.Proofs.Grammar
import Verif.Proofs.Wp

/-! The invariant of the parser: its state stack is a configuration of the grammar automaton. -/

namespace LibYaml

variable {σ : Type}

/-- States that may lie on the state stack. -/
def PState.isCont : PState → Bool
  | .documentEnd | .blockSequenceEntry | .indentlessSequenceEntry | .blockMappingKey | .blockMappingValue
  | .flowSequenceEntry | .flowSequenceEntryMappingValue | .flowSequenceEntryMappingEnd | .flowMappingKey
  | .flowMappingValue | .flowMappingEmptyValue => true
  | _ => false

/-- States that skip an already peeked token first. -/
def PState.isFirst : PState → Bool
  | .blockSequenceFirstEntry | .blockMappingFirstKey | .flowSequenceFirstEntry | .flowMappingFirstKey => true
  | _ => false

/-- Number of marks a state accounts for. -/
def PState.marks : PState → Nat
  | .blockSequenceEntry | .blockMappingKey | .blockMappingValue
  | .flowSequenceEntry | .flowSequenceEntryMappingKey | .flowSequenceEntryMappingValue | .flowSequenceEntryMappingEnd
  | .flowMappingKey | .flowMappingValue | .flowMappingEmptyValue => 1
  | _ => 0

/-- The frames a state stands for, on top of those of the stack below. -/
def PState.top : PState → Option (List Frame)
  | .documentContent | .blockNode => none
  | .blockSequenceFirstEntry | .blockSequenceEntry | .indentlessSequenceEntry | .flowSequenceFirstEntry
  | .flowSequenceEntry => some [.seq]
  | .blockMappingFirstKey | .blockMappingKey | .flowMappingFirstKey | .flowMappingKey => some [.mapKey]
  | .blockMappingValue | .flowMappingValue | .flowMappingEmptyValue => some [.mapVal]
  | .flowSequenceEntryMappingKey | .flowSequenceEntryMappingEnd => some [.mapKey, .seq]
  | .flowSequenceEntryMappingValue => some [.mapVal, .seq]
  | _ => none

/-- The state stack `K` stands for the frames `F` (after the current node). -/
inductive Cont : List PState → List Frame → Prop
  | docEnd : Cont [.documentEnd] [.docEnd]
  | cons {s K t F} : s.isCont = true → s.top = some t → Cont K F → Cont (s :: K) (t ++ F)

/-- State and state stack stand for a configuration. -/
inductive PRel : PState → List PState → Cfg → Prop
  | start : PRel .streamStart [] .start
  | implicitDocs : PRel .implicitDocumentStart [] .docs
  | docs : PRel .documentStart [] .docs
  | content : PRel .documentContent [.documentEnd] (.doc [.docNode])
  | blockNode : PRel .blockNode [.documentEnd] (.doc [.docNode])
  | docEnd : PRel .documentEnd [] (.doc [.docEnd])
  | inner {s K t F} : s.top = some t → Cont K F → PRel s K (.doc (t ++ F))
  | done : PRel .done [] .ended

/-- Sum of the marks of a stack. -/
def stackMarks (K : List PState) : Nat := (K.map PState.marks).sum

/-- The invariant. -/
structure PInv (s : PS σ) (c : Cfg) : Prop where
  rel : PRel s.state s.states c
  marks : s.marks.length = s.state.marks + stackMarks s.states
  first : s.state.isFirst = true → s.avail.isSome = true

/-- Before a node: after the node the stack is in force. -/
structure PPre (s : PS σ) (f : Frame) (K : List Frame) : Prop where
  adv : ∃ g, f.advance = some g ∧ Cont s.states (g :: K)
  marks : s.marks.length = stackMarks s.states

theorem cont_pop {s : PState} {K : List PState} {F : List Frame} (h : Cont (s :: K) F) :
    PRel s K (.doc F) ∧ s.isFirst = false := by
  generalize hk : s :: K = L at h
  cases h with
  | docEnd => cases hk; exact ⟨.docEnd, rfl⟩
  | cons h1 h2 h3 =>
    cases hk
    refine ⟨.inner h2 h3, ?_⟩
    cases s <;> simp_all [PState.isCont, PState.isFirst]

/-! ### Rules for the primitive actions -/

section rules
variable {α β : Type} {Q : α → PS σ → Prop} {E : Fail → Prop} {s : PS σ} {S : TokSrc σ}

theorem wp_pfail {e : Fail} (h : E e) : wp (pfail e : PM σ α) Q E s := h

theorem wp_peek {Q : Token → PS σ → Prop} (hE : ∀ x e, S.next x = .error e → E e)
    (h : ∀ t src, Q t { s with avail := some t, src := src }) : wp (peek S) Q E s := by
  unfold wp peek
  cases ha : s.avail with
  | some t =>
    simp only
    have := h t s.src
    have e : { s with avail := some t, src := s.src } = s := by rw [← ha]
    rw [e] at this; exact this
  | none =>
    simp only
    cases hn : S.next s.src with
    | error e => exact hE _ _ hn
    | ok p => exact h _ _

theorem wp_peekUnchecked {Q : Token → PS σ → Prop} (ha : s.avail.isSome = true)
    (h : ∀ t, s.avail = some t → Q t s) : wp (peekUnchecked S) Q E s := by
  obtain ⟨t, ht⟩ := Option.isSome_iff_exists.mp ha
  unfold wp peekUnchecked peek
  rw [ht]
  exact h t ht

theorem wp_skipTok {Q : Unit → PS σ → Prop} {t : Token} (ha : s.avail = some t)
    (h : Q () { s with avail := none, ended := (t.data == .streamEnd) }) : wp skipTok Q E s := by
  unfold wp skipTok; rw [ha]; exact h

theorem wp_popState {Q : Unit → PS σ → Prop} {st : PState} {K : List PState} (ha : s.states = st :: K)
    (h : Q () { s with state := st, states := K }) : wp popState Q E s := by
  unfold wp popState; rw [ha]; exact h

theorem wp_popMark {Q : Mark → PS σ → Prop} (ha : 0 < s.marks.length)
    (h : ∀ m, Q m { s with marks := s.marks.tail }) : wp popMark Q E s := by
  unfold wp popMark
  cases hm : s.marks with
  | nil => rw [hm] at ha; cases ha
  | cons m ms => have := h m; rw [hm] at this; exact this

theorem wp_pushState {Q : Unit → PS σ → Prop} {st : PState} :
    wp (pushState st) Q E s ↔ Q () { s with states := st :: s.states } := Iff.rfl
theorem wp_setState {Q : Unit → PS σ → Prop} {st : PState} :
    wp (setState st) Q E s ↔ Q () { s with state := st } := Iff.rfl
theorem wp_pushMark {Q : Unit → PS σ → Prop} {m : Mark} :
    wp (pushMark m) Q E s ↔ Q () { s with marks := m :: s.marks } := Iff.rfl
theorem wp_getTags {Q : List TagDir → PS σ → Prop} : wp getTags Q E s ↔ Q s.tags s := Iff.rfl
theorem wp_setTags {Q : Unit → PS σ → Prop} {ts : List TagDir} :
    wp (setTags ts) Q E s ↔ Q () { s with tags := ts } := Iff.rfl

theorem wp_appendTagM {Q : Unit → PS σ → Prop} {v : TagDir} {b : Bool} {m : Mark} (hE : ∀ x, E (.parser none {} x m))
    (h : ∀ ts, Q () { s with tags := ts }) : wp (appendTagM v b m) Q E s := by
  unfold appendTagM
  rw [wp_bind, wp_getTags]
  unfold appendTag
  by_cases h1 : (s.tags.any fun d => d.handle == v.handle) = true
  · simp only [h1, if_true]
    cases b
    · exact hE _
    · exact h _
  · simp only [h1, Bool.false_eq_true, if_false]
    exact h _

theorem wp_resolveTagM {Q : Option Text → PS σ → Prop} {p : Props} (hE : ∀ a b c d, E (.parser a b c d))
    (h : ∀ t, Q t s) : wp (resolveTagM p) Q E s := by
  unfold resolveTagM
  rw [wp_bind, wp_getTags]
  unfold resolveTag
  split <;> rename_i heq
  · split at heq
    · cases heq
    · split at heq
      · cases heq
      · split at heq
        · cases heq
        · cases heq; exact hE _ _ _ _
  · exact h _

theorem wp_checkLevel {Q : Unit → PS σ → Prop} {n : Int} {a b : Mark} (hE : ∀ a b c d, E (.parser a b c d))
    (h : Q () s) : wp (checkLevel S n a b) Q E s := by
  unfold wp checkLevel
  by_cases hc : (S.depth s.src : Int) < n
  · rw [if_pos hc]; exact h
  · rw [if_neg hc]; exact hE _ _ _ _

end rules

/-- The outcomes of a state function: the event is a step of the automaton and the invariant holds afterwards. -/
def StepTo (c : Cfg) : Event → PS σ → Prop := fun e s => ∃ c', c.step e.data = some c' ∧ PInv s c'

/-- The failures allowed: anything but undefined behaviour. -/
def NotUb : Fail → Prop := fun e => e ≠ .ub

/-- A source that never runs into undefined behaviour. -/
def TokSrc.Safe (S : TokSrc σ) : Prop := ∀ x e, S.next x = .error e → e ≠ .ub

theorem pre_irrel {s s' : PS σ} {f : Frame} {K : List Frame} (h : PPre s f K) (h1 : s'.states = s.states)
    (h2 : s'.marks = s.marks) : PPre s' f K := ⟨by rw [h1]; exact h.adv, by rw [h1, h2]; exact h.marks⟩

theorem pop_inv {s : PS σ} {f : Frame} {K : List Frame} (h : PPre s f K) :
    ∃ st K', s.states = st :: K' ∧ ∀ (e : Event) (s' : PS σ), s'.state = st → s'.states = K' → s'.marks = s.marks →
      (Cfg.doc (f :: K)).step e.data = f.advance.map (fun g => .doc (g :: K)) → StepTo (.doc (f :: K)) e s' := by
  obtain ⟨g, hg, hc⟩ := h.adv
  cases hs : s.states with
  | nil => rw [hs] at hc; cases hc
  | cons st K' =>
    refine ⟨st, K', rfl, ?_⟩
    rintro e s' h1 h2 h3 h4
    rw [hs] at hc
    obtain ⟨c1, c2⟩ := cont_pop hc
    refine ⟨.doc (g :: K), by rw [h4, hg]; rfl, ?_⟩
    subst h1 h2
    have hm := h.marks
    rw [hs] at hm
    exact ⟨c1, by rw [h3, hm]; simp [stackMarks], fun hf => by rw [c2] at hf; cases hf⟩

theorem push_inv {s s' : PS σ} {f : Frame} {K : List Frame} (h : PPre s f K) (h1 : s'.states = s.states)
    (h2 : s'.marks = s.marks) (h3 : s'.state.isFirst = true → s'.avail.isSome = true) (h4 : s'.state.marks = 0) (e : Event)
    {r : Frame} (h5 : s'.state.top = some [r])
    (h6 : (Cfg.doc (f :: K)).step e.data = f.advance.map (fun g => .doc (r :: g :: K))) :
    StepTo (.doc (f :: K)) e s' := by
  obtain ⟨g, hg, hc⟩ := h.adv
  refine ⟨.doc (r :: g :: K), by rw [h6, hg]; rfl, ?_⟩
  rw [← h1] at hc
  refine ⟨.inner h5 hc, ?_, h3⟩
  rw [h4, h2, h1, h.marks]; simp

theorem wp_nodeContent {S : TokSrc σ} {n : Int} {block indentless : Bool} {p : Props} {tag : Option Text} {t : Token}
    {s : PS σ} {f : Frame} {K : List Frame} (h : PPre s f K) (ha : s.avail = some t) :
    wp (nodeContent S n block indentless p tag t) (StepTo (.doc (f :: K))) NotUb s := by
  have hE : ∀ a b c d, NotUb (.parser a b c d) := by intro a b c d; simp [NotUb]
  obtain ⟨st, K', hs, hpop⟩ := pop_inv h
  unfold nodeContent
  by_cases h1 : (indentless && t.data == .blockEntry) = true
  · simp only [h1, if_true]
    rw [wp_bind, wp_setState, wp_pure]
    exact push_inv h (by rfl) (by rfl) (by simp [PState.isFirst]) (by rfl) _ (by rfl) (by rfl)
  · simp only [h1]
    simp only [Bool.false_eq_true, if_false]
    split
    · rw [wp_bind]
      refine wp_popState (st := st) (by exact hs) ?_
      rw [wp_bind]
      refine wp_skipTok (t := t) (by exact ha) ?_
      rw [wp_pure]
      exact hpop _ _ (by rfl) (by rfl) (by rfl) (by rfl)
    · rw [wp_bind]
      apply wp_checkLevel hE
      rw [wp_bind, wp_setState, wp_pure]
      exact push_inv h (by rfl) (by rfl) (by simp [ha]) (by rfl) _ (by rfl) (by rfl)
    · rw [wp_bind]
      apply wp_checkLevel hE
      rw [wp_bind, wp_setState, wp_pure]
      exact push_inv h (by rfl) (by rfl) (by simp [ha]) (by rfl) _ (by rfl) (by rfl)
    · split
      · rw [wp_bind]
        apply wp_checkLevel hE
        rw [wp_bind, wp_setState, wp_pure]
        exact push_inv h (by rfl) (by rfl) (by simp [ha]) (by rfl) _ (by rfl) (by rfl)
      · split
        · rw [wp_bind]
          apply wp_checkLevel hE
          rw [wp_bind, wp_setState, wp_pure]
          exact push_inv h (by rfl) (by rfl) (by simp [ha]) (by rfl) _ (by rfl) (by rfl)
        · split
          · rw [wp_bind]
            refine wp_popState (st := st) (by exact hs) ?_
            rw [wp_pure]
            exact hpop _ _ (by rfl) (by rfl) (by rfl) (by rfl)
          · exact wp_pfail (hE _ _ _ _)

/-- Properties leave a peeked token and change nothing else that matters. -/
theorem wp_parseProps {S : TokSrc σ} (hS : S.Safe) {t : Token} {s : PS σ} (ha : s.avail = some t)
    {Q : Props × Token → PS σ → Prop}
    (h : ∀ p t' (s' : PS σ), s'.avail = some t' → s'.states = s.states → s'.marks = s.marks → Q (p, t') s') :
    wp (parseProps S t) Q NotUb s := by
  unfold parseProps
  split
  · rw [wp_bind]
    refine wp_skipTok (by exact ha) ?_
    rw [wp_bind]
    apply wp_peek hS
    intro t2 src2
    split
    · rw [wp_bind]
      refine wp_skipTok (t := t2) (by rfl) ?_
      rw [wp_bind]
      apply wp_peek hS
      intro t3 src3
      rw [wp_pure]
      exact h _ _ _ rfl rfl rfl
    · rw [wp_pure]
      exact h _ _ _ rfl rfl rfl
  · rw [wp_bind]
    refine wp_skipTok (by exact ha) ?_
    rw [wp_bind]
    apply wp_peek hS
    intro t2 src2
    split
    · rw [wp_bind]
      refine wp_skipTok (t := t2) (by rfl) ?_
      rw [wp_bind]
      apply wp_peek hS
      intro t3 src3
      rw [wp_pure]
      exact h _ _ _ rfl rfl rfl
    · rw [wp_pure]
      exact h _ _ _ rfl rfl rfl
  · rw [wp_pure]
    exact h _ _ _ ha rfl rfl

theorem wp_parseNode {S : TokSrc σ} (hS : S.Safe) {n : Int} {block indentless : Bool}
    {s : PS σ} {f : Frame} {K : List Frame} (h : PPre s f K) :
    wp (parseNode S n block indentless) (StepTo (.doc (f :: K))) NotUb s := by
  obtain ⟨st, K', hs, hpop⟩ := pop_inv h
  unfold parseNode
  rw [wp_bind]
  apply wp_peek hS
  intro t src
  split
  · rw [wp_bind]
    refine wp_popState (st := st) (K := K') (by exact hs) ?_
    rw [wp_bind]
    refine wp_skipTok (t := t) (by rfl) ?_
    rw [wp_pure]
    exact hpop _ _ (by rfl) (by rfl) (by rfl) (by rfl)
  · rw [wp_bind]
    apply wp_parseProps hS rfl
    intro p t' s' h1 h2 h3
    simp only
    rw [wp_bind]
    apply wp_resolveTagM (by simp [NotUb])
    intro tag
    exact wp_nodeContent (pre_irrel h h2 h3) h1

/-- An empty scalar in place of a node. -/
theorem empty_inv {s' : PS σ} {f : Frame} {K : List Frame} {c : Cfg} (hr : ∃ g, f.advance = some g ∧ c = .doc (g :: K))
    (h : PInv s' c) (m : Mark) : wp (emptyScalar m : PM σ Event) (StepTo (.doc (f :: K))) NotUb s' := by
  obtain ⟨g, hg, rfl⟩ := hr
  unfold emptyScalar
  rw [wp_pure]
  exact ⟨.doc (g :: K), by simp only [Cfg.step, hg]; rfl, h⟩

theorem rel_inner {st : PState} {K : List PState} {c : Cfg} {t : List Frame} (h : PRel st K c) (ht : st.top = some t) :
    ∃ F, Cont K F ∧ c = .doc (t ++ F) := by
  cases h with
  | inner h1 h2 => rw [ht] at h1; injection h1 with h1; subst h1; exact ⟨_, h2, rfl⟩
  | _ => cases ht

/-- Entering a collection, or being inside: afterwards one mark is accounted for. -/
theorem wp_enterCollection {S : TokSrc σ} {s : PS σ} {first : Bool} {Q : Unit → PS σ → Prop}
    (hf : first = true → s.avail.isSome = true)
    (h : ∀ s' : PS σ, s'.states = s.states → s'.state = s.state →
      s'.marks.length = s.marks.length + (if first then 1 else 0) → Q () s') :
    wp (enterCollection S first) Q NotUb s := by
  unfold enterCollection
  cases first
  · simp only [Bool.false_eq_true, if_false]
    exact h s rfl rfl rfl
  · simp only [if_true]
    rw [wp_bind]
    apply wp_peekUnchecked (hf rfl)
    intro t ht
    rw [wp_bind, wp_pushMark]
    refine wp_skipTok (t := t) (by exact ht) ?_
    exact h _ rfl rfl rfl

theorem stackMarks_cons (s : PState) (K : List PState) : stackMarks (s :: K) = s.marks + stackMarks K := by
  simp [stackMarks]

/-- Inside a collection `top` over the frames of the stack. -/
structure Inside (s : PS σ) (F : List Frame) (m : Nat) : Prop where
  cont : Cont s.states F
  marks : s.marks.length = m + stackMarks s.states

theorem inside_push {s : PS σ} {F : List Frame} {m : Nat} (h : Inside s F m) (st : PState) {g f : Frame} {t : List Frame}
    (h1 : st.isCont = true) (h2 : st.top = some (g :: t)) (h3 : f.advance = some g) (h4 : st.marks = m) :
    PPre ({ s with states := st :: s.states } : PS σ) f (t ++ F) :=
  ⟨⟨g, h3, by have := Cont.cons h1 h2 h.cont; simpa using this⟩, by simp only [stackMarks_cons]; rw [h.marks, h4]⟩

theorem inside_set {s : PS σ} {F : List Frame} {m : Nat} (h : Inside s F m) (st : PState) {t : List Frame}
    (h2 : st.top = some t) (h3 : st.isFirst = false) (h4 : st.marks = m) :
    PInv ({ s with state := st } : PS σ) (.doc (t ++ F)) :=
  ⟨.inner h2 h.cont, by simp only; rw [h.marks, h4], fun hf => by simp only at hf; rw [h3] at hf; cases hf⟩

theorem inside_irrel {s s' : PS σ} {F : List Frame} {m : Nat} (h : Inside s F m) (h1 : s'.states = s.states)
    (h2 : s'.marks.length = s.marks.length) : Inside s' F m :=
  ⟨by rw [h1]; exact h.cont, by rw [h1, h2]; exact h.marks⟩

/-- The end of a collection that has a mark. -/
theorem inside_pop {s : PS σ} {F : List Frame} (h : Inside s F 1) :
    ∃ st K, s.states = st :: K ∧ 0 < s.marks.length ∧
      ∀ s' : PS σ, s'.state = st → s'.states = K → s'.marks = s.marks.tail → PInv s' (.doc F) := by
  have hc := h.cont
  cases hs : s.states with
  | nil => rw [hs] at hc; cases hc
  | cons st K =>
    rw [hs] at hc
    obtain ⟨c1, c2⟩ := cont_pop hc
    have hm := h.marks
    refine ⟨st, K, rfl, by omega, ?_⟩
    intro s' h1 h2 h3
    subst h1 h2
    rw [hs, stackMarks_cons] at hm
    exact ⟨c1, by rw [h3, List.length_tail]; omega, fun hf => by rw [c2] at hf; cases hf⟩

/-- The end of a collection without a mark. -/
theorem inside_pop0 {s : PS σ} {F : List Frame} (h : Inside s F 0) :
    ∃ st K, s.states = st :: K ∧
      ∀ s' : PS σ, s'.state = st → s'.states = K → s'.marks = s.marks → PInv s' (.doc F) := by
  have hc := h.cont
  cases hs : s.states with
  | nil => rw [hs] at hc; cases hc
  | cons st K =>
    rw [hs] at hc
    obtain ⟨c1, c2⟩ := cont_pop hc
    have hm := h.marks
    refine ⟨st, K, rfl, ?_⟩
    intro s' h1 h2 h3
    subst h1 h2
    rw [hs, stackMarks_cons] at hm
    exact ⟨c1, by rw [h3]; omega, fun hf => by rw [c2] at hf; cases hf⟩

/-- What the invariant gives inside a collection. -/
theorem inv_inside {s : PS σ} {c : Cfg} (h : PInv s c) {t : List Frame} (ht : s.state.top = some t) :
    ∃ F, c = .doc (t ++ F) ∧ Inside s F s.state.marks := by
  obtain ⟨F, h1, h2⟩ := rel_inner h.rel ht
  exact ⟨F, h2, ⟨h1, h.marks⟩⟩

theorem wp_endFlow {s : PS σ} {F : List Frame} {r : Frame} {d : EvData} {t : Token} (h : Inside s F 1)
    (ha : s.avail = some t) (hd : (Cfg.doc (r :: F)).step d = some (.doc F)) :
    wp (endFlow d t) (StepTo (.doc (r :: F))) NotUb s := by
  obtain ⟨st, K, hs, hm, hp⟩ := inside_pop h
  unfold endFlow
  rw [wp_bind]
  refine wp_popState (st := st) (by exact hs) ?_
  rw [wp_bind]
  refine wp_popMark (by exact hm) ?_
  intro m
  rw [wp_bind]
  refine wp_skipTok (t := t) (by exact ha) ?_
  rw [wp_pure]
  exact ⟨_, hd, hp _ (by rfl) (by rfl) (by rfl)⟩

theorem wp_parseBlockSequenceEntry {S : TokSrc σ} (hS : S.Safe) {n : Int} {first : Bool} {s : PS σ} {F : List Frame}
    (h : Inside s F (if first then 0 else 1)) (hf : first = true → s.avail.isSome = true) :
    wp (parseBlockSequenceEntry S n first) (StepTo (.doc (.seq :: F))) NotUb s := by
  unfold parseBlockSequenceEntry
  rw [wp_bind]
  apply wp_enterCollection hf
  intro s1 e1 e2 e3
  have h1 : Inside s1 F 1 := ⟨by rw [e1]; exact h.cont, by rw [e3, e1, h.marks]; cases first <;> simp <;> omega⟩
  rw [wp_bind]
  apply wp_peek hS
  intro t src
  split
  · rw [wp_bind]
    refine wp_skipTok (t := t) (by rfl) ?_
    rw [wp_bind]
    apply wp_peek hS
    intro t2 src2
    split
    · rw [wp_bind, wp_pushState]
      exact wp_parseNode hS (inside_push (inside_irrel h1 (by rfl) (by rfl)) .blockSequenceEntry (t := []) rfl rfl rfl rfl)
    · rw [wp_bind, wp_setState]
      exact empty_inv ⟨_, rfl, rfl⟩ (inside_set (inside_irrel h1 (by rfl) (by rfl)) .blockSequenceEntry (t := [.seq]) rfl rfl rfl) _
  · obtain ⟨st, K, hs, hm, hp⟩ := inside_pop h1
    rw [wp_bind]
    refine wp_popState (st := st) (by exact hs) ?_
    rw [wp_bind]
    refine wp_popMark (by exact hm) ?_
    intro m
    rw [wp_bind]
    refine wp_skipTok (t := t) (by rfl) ?_
    rw [wp_pure]
    exact ⟨_, rfl, hp _ (by rfl) (by rfl) (by rfl)⟩
  · obtain ⟨st, K, hs, hm, hp⟩ := inside_pop h1
    rw [wp_bind]
    refine wp_popMark (by exact hm) ?_
    intro m
    exact wp_pfail (by simp [NotUb])

theorem wp_parseIndentless {S : TokSrc σ} (hS : S.Safe) {n : Int} {s : PS σ} {F : List Frame} (h : Inside s F 0) :
    wp (parseIndentlessSequenceEntry S n) (StepTo (.doc (.seq :: F))) NotUb s := by
  unfold parseIndentlessSequenceEntry
  rw [wp_bind]
  apply wp_peek hS
  intro t src
  split
  · rw [wp_bind]
    refine wp_skipTok (t := t) (by rfl) ?_
    rw [wp_bind]
    apply wp_peek hS
    intro t2 src2
    split
    · rw [wp_bind, wp_pushState]
      exact wp_parseNode hS (inside_push (inside_irrel h (by rfl) (by rfl)) .indentlessSequenceEntry (t := []) rfl rfl rfl rfl)
    · rw [wp_bind, wp_setState]
      exact empty_inv ⟨_, rfl, rfl⟩ (inside_set (inside_irrel h (by rfl) (by rfl)) .indentlessSequenceEntry (t := [.seq]) rfl rfl rfl) _
  · obtain ⟨st, K, hs, hp⟩ := inside_pop0 h
    rw [wp_bind]
    refine wp_popState (st := st) (by exact hs) ?_
    rw [wp_pure]
    exact ⟨_, rfl, hp _ (by rfl) (by rfl) (by rfl)⟩

theorem wp_parseBlockMappingKey {S : TokSrc σ} (hS : S.Safe) {n : Int} {first : Bool} {s : PS σ} {F : List Frame}
    (h : Inside s F (if first then 0 else 1)) (hf : first = true → s.avail.isSome = true) :
    wp (parseBlockMappingKey S n first) (StepTo (.doc (.mapKey :: F))) NotUb s := by
  unfold parseBlockMappingKey
  rw [wp_bind]
  apply wp_enterCollection hf
  intro s1 e1 e2 e3
  have h1 : Inside s1 F 1 := ⟨by rw [e1]; exact h.cont, by rw [e3, e1, h.marks]; cases first <;> simp <;> omega⟩
  rw [wp_bind]
  apply wp_peek hS
  intro t src
  split
  · rw [wp_bind]
    refine wp_skipTok (t := t) (by rfl) ?_
    rw [wp_bind]
    apply wp_peek hS
    intro t2 src2
    split
    · rw [wp_bind, wp_pushState]
      exact wp_parseNode hS (inside_push (inside_irrel h1 (by rfl) (by rfl)) .blockMappingValue (t := []) rfl rfl rfl rfl)
    · rw [wp_bind, wp_setState]
      exact empty_inv ⟨_, rfl, rfl⟩ (inside_set (inside_irrel h1 (by rfl) (by rfl)) .blockMappingValue (t := [.mapVal]) rfl rfl rfl) _
  · obtain ⟨st, K, hs, hm, hp⟩ := inside_pop h1
    rw [wp_bind]
    refine wp_popState (st := st) (by exact hs) ?_
    rw [wp_bind]
    refine wp_popMark (by exact hm) ?_
    intro m
    rw [wp_bind]
    refine wp_skipTok (t := t) (by rfl) ?_
    rw [wp_pure]
    exact ⟨_, rfl, hp _ (by rfl) (by rfl) (by rfl)⟩
  · obtain ⟨st, K, hs, hm, hp⟩ := inside_pop h1
    rw [wp_bind]
    refine wp_popMark (by exact hm) ?_
    intro m
    exact wp_pfail (by simp [NotUb])

theorem wp_parseBlockMappingValue {S : TokSrc σ} (hS : S.Safe) {n : Int} {s : PS σ} {F : List Frame} (h : Inside s F 1) :
    wp (parseBlockMappingValue S n) (StepTo (.doc (.mapVal :: F))) NotUb s := by
  unfold parseBlockMappingValue
  rw [wp_bind]
  apply wp_peek hS
  intro t src
  split
  · rw [wp_bind]
    refine wp_skipTok (t := t) (by rfl) ?_
    rw [wp_bind]
    apply wp_peek hS
    intro t2 src2
    split
    · rw [wp_bind, wp_pushState]
      exact wp_parseNode hS (inside_push (inside_irrel h (by rfl) (by rfl)) .blockMappingKey (t := []) rfl rfl rfl rfl)
    · rw [wp_bind, wp_setState]
      exact empty_inv ⟨_, rfl, rfl⟩ (inside_set (inside_irrel h (by rfl) (by rfl)) .blockMappingKey (t := [.mapKey]) rfl rfl rfl) _
  · rw [wp_bind, wp_setState]
    exact empty_inv ⟨_, rfl, rfl⟩ (inside_set (inside_irrel h (by rfl) (by rfl)) .blockMappingKey (t := [.mapKey]) rfl rfl rfl) _

theorem wp_flowSeparator {S : TokSrc σ} (hS : S.Safe) {first : Bool} {s : PS σ} {F : List Frame} {t : Token}
    {a b : String} (h : Inside s F 1) (ha : s.avail = some t) {Q : Token → PS σ → Prop}
    (hQ : ∀ t' s', Inside s' F 1 → s'.avail = some t' → Q t' s') :
    wp (flowSeparator S first t a b) Q NotUb s := by
  unfold flowSeparator
  cases first
  · simp only [Bool.false_eq_true, if_false]
    split
    · rw [wp_bind]
      refine wp_skipTok (by exact ha) ?_
      apply wp_peek hS
      intro t2 src2
      exact hQ _ _ (inside_irrel h (by rfl) (by rfl)) rfl
    · obtain ⟨st, K, hs, hm, hp⟩ := inside_pop h
      rw [wp_bind]
      refine wp_popMark (by exact hm) ?_
      intro m
      exact wp_pfail (by simp [NotUb])
  · simp only [if_true]
    rw [wp_pure]
    exact hQ _ _ h ha

theorem wp_parseFlowSequenceEntry {S : TokSrc σ} (hS : S.Safe) {n : Int} {first : Bool} {s : PS σ} {F : List Frame}
    (h : Inside s F (if first then 0 else 1)) (hf : first = true → s.avail.isSome = true) :
    wp (parseFlowSequenceEntry S n first) (StepTo (.doc (.seq :: F))) NotUb s := by
  unfold parseFlowSequenceEntry
  rw [wp_bind]
  apply wp_enterCollection hf
  intro s1 e1 e2 e3
  have h1 : Inside s1 F 1 := ⟨by rw [e1]; exact h.cont, by rw [e3, e1, h.marks]; cases first <;> simp <;> omega⟩
  rw [wp_bind]
  apply wp_peek hS
  intro t src
  split
  · rw [wp_bind]
    apply wp_flowSeparator hS (inside_irrel h1 (by rfl) (by rfl)) rfl
    intro t2 s2 h2 ha2
    split
    · rw [wp_bind, wp_setState, wp_bind]
      refine wp_skipTok (t := t2) (by exact ha2) ?_
      rw [wp_pure]
      exact ⟨_, rfl, .inner (t := [.mapKey, .seq]) rfl h2.cont, h2.marks, by simp [PState.isFirst]⟩
    · split
      · rw [wp_bind, wp_pushState]
        exact wp_parseNode hS (inside_push (inside_irrel h2 (by rfl) (by rfl)) .flowSequenceEntry (t := []) rfl rfl rfl rfl)
      · exact wp_endFlow h2 ha2 rfl
  · exact wp_endFlow (inside_irrel h1 (by rfl) (by rfl)) rfl rfl

theorem wp_fseKey {S : TokSrc σ} (hS : S.Safe) {n : Int} {s : PS σ} {F : List Frame} (h : Inside s F 1) :
    wp (parseFlowSequenceEntryMappingKey S n) (StepTo (.doc (.mapKey :: .seq :: F))) NotUb s := by
  unfold parseFlowSequenceEntryMappingKey
  rw [wp_bind]
  apply wp_peek hS
  intro t src
  split
  · rw [wp_bind, wp_pushState]
    exact wp_parseNode hS
      (inside_push (inside_irrel h (by rfl) (by rfl)) .flowSequenceEntryMappingValue (t := [.seq]) rfl rfl rfl rfl)
  · split
    · rw [wp_bind, wp_setState]
      exact empty_inv ⟨_, rfl, rfl⟩
        (inside_set (inside_irrel h (by rfl) (by rfl)) .flowSequenceEntryMappingValue (t := [.mapVal, .seq]) rfl rfl rfl) _
    · rw [wp_bind]
      refine wp_skipTok (t := t) (by rfl) ?_
      rw [wp_bind, wp_setState]
      exact empty_inv ⟨_, rfl, rfl⟩
        (inside_set (inside_irrel h (by rfl) (by rfl)) .flowSequenceEntryMappingValue (t := [.mapVal, .seq]) rfl rfl rfl) _

theorem wp_fseValue {S : TokSrc σ} (hS : S.Safe) {n : Int} {s : PS σ} {F : List Frame} (h : Inside s F 1) :
    wp (parseFlowSequenceEntryMappingValue S n) (StepTo (.doc (.mapVal :: .seq :: F))) NotUb s := by
  unfold parseFlowSequenceEntryMappingValue
  rw [wp_bind]
  apply wp_peek hS
  intro t src
  split
  · rw [wp_bind]
    refine wp_skipTok (t := t) (by rfl) ?_
    rw [wp_bind]
    apply wp_peek hS
    intro t2 src2
    split
    · rw [wp_bind, wp_pushState]
      exact wp_parseNode hS
        (inside_push (inside_irrel h (by rfl) (by rfl)) .flowSequenceEntryMappingEnd (t := [.seq]) rfl rfl rfl rfl)
    · rw [wp_bind, wp_setState]
      exact empty_inv ⟨_, rfl, rfl⟩
        (inside_set (inside_irrel h (by rfl) (by rfl)) .flowSequenceEntryMappingEnd (t := [.mapKey, .seq]) rfl rfl rfl) _
  · rw [wp_bind, wp_setState]
    exact empty_inv ⟨_, rfl, rfl⟩
      (inside_set (inside_irrel h (by rfl) (by rfl)) .flowSequenceEntryMappingEnd (t := [.mapKey, .seq]) rfl rfl rfl) _

theorem wp_fseEnd {S : TokSrc σ} (hS : S.Safe) {s : PS σ} {F : List Frame} (h : Inside s F 1) :
    wp (parseFlowSequenceEntryMappingEnd S) (StepTo (.doc (.mapKey :: .seq :: F))) NotUb s := by
  unfold parseFlowSequenceEntryMappingEnd
  rw [wp_bind]
  apply wp_peek hS
  intro t src
  rw [wp_bind, wp_setState, wp_pure]
  exact ⟨_, rfl, inside_set (inside_irrel h (by rfl) (by rfl)) .flowSequenceEntry (t := [.seq]) rfl rfl rfl⟩

theorem wp_parseFlowMappingKey {S : TokSrc σ} (hS : S.Safe) {n : Int} {first : Bool} {s : PS σ} {F : List Frame}
    (h : Inside s F (if first then 0 else 1)) (hf : first = true → s.avail.isSome = true) :
    wp (parseFlowMappingKey S n first) (StepTo (.doc (.mapKey :: F))) NotUb s := by
  unfold parseFlowMappingKey
  rw [wp_bind]
  apply wp_enterCollection hf
  intro s1 e1 e2 e3
  have h1 : Inside s1 F 1 := ⟨by rw [e1]; exact h.cont, by rw [e3, e1, h.marks]; cases first <;> simp <;> omega⟩
  rw [wp_bind]
  apply wp_peek hS
  intro t src
  split
  · rw [wp_bind]
    apply wp_flowSeparator hS (inside_irrel h1 (by rfl) (by rfl)) rfl
    intro t2 s2 h2 ha2
    split
    · rw [wp_bind]
      refine wp_skipTok (t := t2) (by exact ha2) ?_
      rw [wp_bind]
      apply wp_peek hS
      intro t3 src3
      split
      · rw [wp_bind, wp_pushState]
        exact wp_parseNode hS (inside_push (inside_irrel h2 (by rfl) (by rfl)) .flowMappingValue (t := []) rfl rfl rfl rfl)
      · rw [wp_bind, wp_setState]
        exact empty_inv ⟨_, rfl, rfl⟩ (inside_set (inside_irrel h2 (by rfl) (by rfl)) .flowMappingValue (t := [.mapVal]) rfl rfl rfl) _
    · split
      · rw [wp_bind, wp_pushState]
        exact wp_parseNode hS (inside_push (inside_irrel h2 (by rfl) (by rfl)) .flowMappingEmptyValue (t := []) rfl rfl rfl rfl)
      · exact wp_endFlow h2 ha2 rfl
  · exact wp_endFlow (inside_irrel h1 (by rfl) (by rfl)) rfl rfl

theorem wp_parseFlowMappingValue {S : TokSrc σ} (hS : S.Safe) {n : Int} {empty : Bool} {s : PS σ} {F : List Frame}
    (h : Inside s F 1) : wp (parseFlowMappingValue S n empty) (StepTo (.doc (.mapVal :: F))) NotUb s := by
  unfold parseFlowMappingValue
  rw [wp_bind]
  apply wp_peek hS
  intro t src
  split
  · rw [wp_bind, wp_setState]
    exact empty_inv ⟨_, rfl, rfl⟩ (inside_set (inside_irrel h (by rfl) (by rfl)) .flowMappingKey (t := [.mapKey]) rfl rfl rfl) _
  · split
    · rw [wp_bind]
      refine wp_skipTok (t := t) (by rfl) ?_
      rw [wp_bind]
      apply wp_peek hS
      intro t2 src2
      split
      · rw [wp_bind, wp_pushState]
        exact wp_parseNode hS (inside_push (inside_irrel h (by rfl) (by rfl)) .flowMappingKey (t := []) rfl rfl rfl rfl)
      · rw [wp_bind, wp_setState]
        exact empty_inv ⟨_, rfl, rfl⟩ (inside_set (inside_irrel h (by rfl) (by rfl)) .flowMappingKey (t := [.mapKey]) rfl rfl rfl) _
    · rw [wp_bind, wp_setState]
      exact empty_inv ⟨_, rfl, rfl⟩ (inside_set (inside_irrel h (by rfl) (by rfl)) .flowMappingKey (t := [.mapKey]) rfl rfl rfl) _

/-! ### Documents -/

/-- Directives change neither the stacks nor the state. -/
theorem wp_directivesLoop {S : TokSrc σ} (hS : S.Safe) (fuel : Nat) {v : Option Version} {ts : List TagDir} {s : PS σ}
    {Q : Option Version × List TagDir → PS σ → Prop}
    (h : ∀ r (s' : PS σ), s'.states = s.states → s'.marks = s.marks → s'.state = s.state → Q r s') :
    wp (directivesLoop S fuel v ts) Q NotUb s := by
  induction fuel generalizing v ts s with
  | zero => exact wp_pfail (by simp [NotUb])
  | succ fuel ih =>
    unfold directivesLoop
    rw [wp_bind]
    apply wp_peek hS
    intro t src
    split
    · split
      · exact wp_pfail (by simp [NotUb])
      · split
        · exact wp_pfail (by simp [NotUb])
        · rw [wp_bind]
          refine wp_skipTok (t := t) (by rfl) ?_
          apply ih
          intro r s' h1 h2 h3
          exact h r s' h1 h2 h3
    · rw [wp_bind]
      apply wp_appendTagM (by simp [NotUb])
      intro ts'
      rw [wp_bind]
      refine wp_skipTok (t := t) (by rfl) ?_
      apply ih
      intro r s' h1 h2 h3
      exact h r s' h1 h2 h3
    · rw [wp_pure]
      exact h _ _ rfl rfl rfl

theorem wp_processDirectives {S : TokSrc σ} (hS : S.Safe) (fuel : Nat) {s : PS σ}
    {Q : Option Version × List TagDir → PS σ → Prop}
    (h : ∀ r (s' : PS σ), s'.states = s.states → s'.marks = s.marks → s'.state = s.state → Q r s') :
    wp (processDirectives S fuel) Q NotUb s := by
  unfold processDirectives
  rw [wp_bind]
  apply wp_directivesLoop hS
  intro r s' h1 h2 h3
  rw [wp_bind]
  apply wp_peek hS
  intro t src
  rw [wp_bind]
  apply wp_appendTagM (by simp [NotUb])
  intro ts
  rw [wp_bind]
  apply wp_appendTagM (by simp [NotUb])
  intro ts
  rw [wp_pure]
  exact h _ _ h1 h2 h3

theorem wp_skipDocumentEnds {S : TokSrc σ} (hS : S.Safe) (fuel : Nat) {s : PS σ} {Q : Unit → PS σ → Prop}
    (h : ∀ s' : PS σ, s'.states = s.states → s'.marks = s.marks → s'.state = s.state → Q () s') :
    wp (skipDocumentEnds S fuel) Q NotUb s := by
  induction fuel generalizing s with
  | zero => exact wp_pfail (by simp [NotUb])
  | succ fuel ih =>
    unfold skipDocumentEnds
    rw [wp_bind]
    apply wp_peek hS
    intro t src
    split
    · rw [wp_bind]
      refine wp_skipTok (t := t) (by rfl) ?_
      apply ih
      intro s' h1 h2 h3
      exact h s' h1 h2 h3
    · rw [wp_pure]; exact h _ rfl rfl rfl

theorem wp_parseDocumentStart {S : TokSrc σ} (hS : S.Safe) {fuel : Nat} {implicit : Bool} {s : PS σ}
    (h1 : s.states = []) (h2 : s.marks = []) : wp (parseDocumentStart S fuel implicit) (StepTo .docs) NotUb s := by
  have main : ∀ s1 : PS σ, s1.states = [] → s1.marks = [] → wp (do
      let token ← peek S
      if implicit && !token.data.startsDocument then
        let _ ← processDirectives S fuel
        pushState .documentEnd
        setState .blockNode
        pure { data := .documentStart none [] true, start := token.start, stop := token.start }
      else if token.data ≠ .streamEnd then
        let start := token.start
        let (version, tags) ← processDirectives S fuel
        let token ← peek S
        if token.data = .documentStart then
          pushState .documentEnd
          setState .documentContent
          skipTok
          pure { data := .documentStart version tags false, start := start, stop := token.stop }
        else perr "did not find expected <document start>" token.start
      else
        setState .done
        skipTok
        pure { data := .streamEnd, start := token.start, stop := token.stop } : PM σ Event) (StepTo .docs) NotUb s1 := by
    intro s1 h1 h2
    rw [wp_bind]
    apply wp_peek hS
    intro t src
    split
    · rw [wp_bind]
      apply wp_processDirectives hS
      intro r s' e1 e2 e3
      rw [wp_bind, wp_pushState, wp_bind, wp_setState, wp_pure]
      refine ⟨_, rfl, ?_, ?_, ?_⟩
      · simp only [e1, h1]; exact .blockNode
      · simp only [e1, e2, h1, h2]; rfl
      · simp [PState.isFirst]
    · split
      · simp only
        rw [wp_bind]
        apply wp_processDirectives hS
        intro r s' e1 e2 e3
        rw [wp_bind]
        apply wp_peek hS
        intro t2 src2
        split
        · rw [wp_bind, wp_pushState, wp_bind, wp_setState, wp_bind]
          refine wp_skipTok (t := t2) (by rfl) ?_
          rw [wp_pure]
          refine ⟨_, rfl, ?_, ?_, ?_⟩
          · simp only [e1, h1]; exact .content
          · simp only [e1, e2, h1, h2]; rfl
          · simp [PState.isFirst]
        · exact wp_pfail (by simp [NotUb])
      · rw [wp_bind, wp_setState, wp_bind]
        refine wp_skipTok (t := t) (by rfl) ?_
        rw [wp_pure]
        refine ⟨_, rfl, ?_, ?_, ?_⟩
        · simp only [h1]; exact .done
        · simp only [h1, h2]; rfl
        · simp [PState.isFirst]
  unfold parseDocumentStart
  cases implicit
  · simp only [Bool.not_false, if_true]
    rw [wp_bind]
    apply wp_skipDocumentEnds hS
    intro s' e1 e2 e3
    exact main s' (by rw [e1, h1]) (by rw [e2, h2])
  · exact main s h1 h2

theorem wp_parseDocumentContent {S : TokSrc σ} (hS : S.Safe) {n : Int} {s : PS σ} (h1 : s.states = [.documentEnd])
    (h2 : s.marks = []) : wp (parseDocumentContent S n) (StepTo (.doc [.docNode])) NotUb s := by
  unfold parseDocumentContent
  rw [wp_bind]
  apply wp_peek hS
  intro t src
  split
  · rw [wp_bind]
    refine wp_popState (st := .documentEnd) (K := []) (by exact h1) ?_
    refine empty_inv ⟨_, rfl, rfl⟩ ⟨.docEnd, ?_, ?_⟩ _
    · simp only [h2]; rfl
    · simp [PState.isFirst]
  · apply wp_parseNode hS
    exact ⟨⟨_, rfl, by simp only [h1]; exact .docEnd⟩, by simp only [h1, h2]; rfl⟩

theorem wp_parseDocumentEnd {S : TokSrc σ} (hS : S.Safe) {s : PS σ} (h1 : s.states = [])
    (h2 : s.marks = []) : wp (parseDocumentEnd S) (StepTo (.doc [.docEnd])) NotUb s := by
  unfold parseDocumentEnd
  rw [wp_bind]
  apply wp_peek hS
  intro t src
  split
  · rw [wp_bind]
    refine wp_skipTok (t := t) (by rfl) ?_
    rw [wp_bind, wp_setTags, wp_bind, wp_setState, wp_pure]
    refine ⟨_, rfl, ?_, ?_, ?_⟩
    · simp only [h1]; exact .docs
    · simp only [h1, h2]; rfl
    · simp [PState.isFirst]
  · rw [wp_bind, wp_setTags, wp_bind, wp_setState, wp_pure]
    refine ⟨_, rfl, ?_, ?_, ?_⟩
    · simp only [h1]; exact .docs
    · simp only [h1, h2]; rfl
    · simp [PState.isFirst]

theorem wp_parseStreamStart {S : TokSrc σ} (hS : S.Safe) {s : PS σ} (h1 : s.states = []) (h2 : s.marks = []) :
    wp (parseStreamStart S) (StepTo .start) NotUb s := by
  unfold parseStreamStart
  rw [wp_bind]
  apply wp_peek hS
  intro t src
  split
  · rw [wp_bind, wp_setState, wp_bind]
    refine wp_skipTok (t := t) (by rfl) ?_
    rw [wp_pure]
    refine ⟨_, rfl, ?_, ?_, ?_⟩
    · simp only [h1]; exact .implicitDocs
    · simp only [h1, h2]; rfl
    · simp [PState.isFirst]
  · exact wp_pfail (by simp [NotUb])

theorem marks_nil {s : PS σ} {c : Cfg} (h : PInv s c) (h1 : s.states = []) (h2 : s.state.marks = 0) : s.marks = [] := by
  have := h.marks
  rw [h1, h2] at this
  exact List.length_eq_zero_iff.mp this

/-- Every step of the state machine is a step of the automaton. -/
theorem wp_stateMachine {S : TokSrc σ} (hS : S.Safe) (n : Int) (fuel : Nat) {s : PS σ} {c : Cfg} (h : PInv s c)
    (hd : s.state ≠ .done) : wp (stateMachine S n fuel) (StepTo c) NotUb s := by
  have hr := h.rel
  have hfirst := h.first
  have hin := fun {t} => @inv_inside σ s c h t
  unfold wp stateMachine
  cases hst : s.state with
  | streamStart =>
    rw [hst] at hr
    generalize hK : s.states = K at hr
    cases hr with
    | start => exact wp_parseStreamStart hS hK (marks_nil h hK (by rw [hst]; rfl))
    | inner ht _ => cases ht
  | implicitDocumentStart =>
    rw [hst] at hr
    generalize hK : s.states = K at hr
    cases hr with
    | implicitDocs => exact wp_parseDocumentStart hS hK (marks_nil h hK (by rw [hst]; rfl))
    | inner ht _ => cases ht
  | documentStart =>
    rw [hst] at hr
    generalize hK : s.states = K at hr
    cases hr with
    | docs => exact wp_parseDocumentStart hS hK (marks_nil h hK (by rw [hst]; rfl))
    | inner ht _ => cases ht
  | documentContent =>
    rw [hst] at hr
    generalize hK : s.states = K at hr
    cases hr with
    | content =>
      apply wp_parseDocumentContent hS hK
      have := h.marks; rw [hK, hst] at this
      exact List.length_eq_zero_iff.mp this
    | inner ht _ => cases ht
  | documentEnd =>
    rw [hst] at hr
    generalize hK : s.states = K at hr
    cases hr with
    | docEnd => exact wp_parseDocumentEnd hS hK (marks_nil h hK (by rw [hst]; rfl))
    | inner ht _ => cases ht
  | blockNode =>
    rw [hst] at hr
    generalize hK : s.states = K at hr
    cases hr with
    | blockNode =>
      apply wp_parseNode hS
      refine ⟨⟨_, rfl, by rw [hK]; exact .docEnd⟩, ?_⟩
      have := h.marks; rw [hst] at this; simpa [PState.marks] using this
    | inner ht _ => cases ht
  | blockSequenceFirstEntry =>
    obtain ⟨F, rfl, hi⟩ := hin (t := [.seq]) (by rw [hst]; rfl)
    rw [hst] at hi hfirst
    exact wp_parseBlockSequenceEntry hS hi (fun _ => hfirst rfl)
  | blockSequenceEntry =>
    obtain ⟨F, rfl, hi⟩ := hin (t := [.seq]) (by rw [hst]; rfl)
    rw [hst] at hi
    exact wp_parseBlockSequenceEntry hS hi (by simp)
  | indentlessSequenceEntry =>
    obtain ⟨F, rfl, hi⟩ := hin (t := [.seq]) (by rw [hst]; rfl)
    rw [hst] at hi
    exact wp_parseIndentless hS hi
  | blockMappingFirstKey =>
    obtain ⟨F, rfl, hi⟩ := hin (t := [.mapKey]) (by rw [hst]; rfl)
    rw [hst] at hi hfirst
    exact wp_parseBlockMappingKey hS hi (fun _ => hfirst rfl)
  | blockMappingKey =>
    obtain ⟨F, rfl, hi⟩ := hin (t := [.mapKey]) (by rw [hst]; rfl)
    rw [hst] at hi
    exact wp_parseBlockMappingKey hS hi (by simp)
  | blockMappingValue =>
    obtain ⟨F, rfl, hi⟩ := hin (t := [.mapVal]) (by rw [hst]; rfl)
    rw [hst] at hi
    exact wp_parseBlockMappingValue hS hi
  | flowSequenceFirstEntry =>
    obtain ⟨F, rfl, hi⟩ := hin (t := [.seq]) (by rw [hst]; rfl)
    rw [hst] at hi hfirst
    exact wp_parseFlowSequenceEntry hS hi (fun _ => hfirst rfl)
  | flowSequenceEntry =>
    obtain ⟨F, rfl, hi⟩ := hin (t := [.seq]) (by rw [hst]; rfl)
    rw [hst] at hi
    exact wp_parseFlowSequenceEntry hS hi (by simp)
  | flowSequenceEntryMappingKey =>
    obtain ⟨F, rfl, hi⟩ := hin (t := [.mapKey, .seq]) (by rw [hst]; rfl)
    rw [hst] at hi
    exact wp_fseKey hS hi
  | flowSequenceEntryMappingValue =>
    obtain ⟨F, rfl, hi⟩ := hin (t := [.mapVal, .seq]) (by rw [hst]; rfl)
    rw [hst] at hi
    exact wp_fseValue hS hi
  | flowSequenceEntryMappingEnd =>
    obtain ⟨F, rfl, hi⟩ := hin (t := [.mapKey, .seq]) (by rw [hst]; rfl)
    rw [hst] at hi
    exact wp_fseEnd hS hi
  | flowMappingFirstKey =>
    obtain ⟨F, rfl, hi⟩ := hin (t := [.mapKey]) (by rw [hst]; rfl)
    rw [hst] at hi hfirst
    exact wp_parseFlowMappingKey hS hi (fun _ => hfirst rfl)
  | flowMappingKey =>
    obtain ⟨F, rfl, hi⟩ := hin (t := [.mapKey]) (by rw [hst]; rfl)
    rw [hst] at hi
    exact wp_parseFlowMappingKey hS hi (by simp)
  | flowMappingValue =>
    obtain ⟨F, rfl, hi⟩ := hin (t := [.mapVal]) (by rw [hst]; rfl)
    rw [hst] at hi
    exact wp_parseFlowMappingValue hS hi
  | flowMappingEmptyValue =>
    obtain ⟨F, rfl, hi⟩ := hin (t := [.mapVal]) (by rw [hst]; rfl)
    rw [hst] at hi
    exact wp_parseFlowMappingValue hS hi
  | done => exact absurd hst hd

end LibYaml
