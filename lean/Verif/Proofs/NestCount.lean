import Verif.Proofs.GrammarRun
import Verif.Proofs.LookAhead

/-!
Counting the collections that are open in the parser: each state on its stack stands for the collections that are open in it.
-/

namespace LibYaml

open Spec

/-- Open collections in a state. -/
def openW : PState → Nat
  | .blockSequenceFirstEntry | .blockSequenceEntry | .indentlessSequenceEntry | .blockMappingFirstKey | .blockMappingKey | .blockMappingValue
  | .flowSequenceFirstEntry | .flowSequenceEntry | .flowMappingFirstKey | .flowMappingKey | .flowMappingValue | .flowMappingEmptyValue => 1
  | .flowSequenceEntryMappingKey | .flowSequenceEntryMappingValue | .flowSequenceEntryMappingEnd => 2
  | _ => 0

/-- Those of them that a token has opened in the block context. -/
def blockW : PState → Nat
  | .blockSequenceFirstEntry | .blockSequenceEntry | .blockMappingFirstKey | .blockMappingKey | .blockMappingValue => 1
  | _ => 0

/-- Those of them that a bracket has opened. -/
def flowW : PState → Nat
  | .flowSequenceFirstEntry | .flowSequenceEntry | .flowMappingFirstKey | .flowMappingKey | .flowMappingValue | .flowMappingEmptyValue
  | .flowSequenceEntryMappingKey | .flowSequenceEntryMappingValue | .flowSequenceEntryMappingEnd => 1
  | _ => 0

/-- States in which the token that opens the collection is still to be read. -/
def startTok : PState → Option TokData
  | .blockSequenceFirstEntry => some .blockSequenceStart
  | .blockMappingFirstKey => some .blockMappingStart
  | .flowSequenceFirstEntry => some .flowSequenceStart
  | .flowMappingFirstKey => some .flowMappingStart
  | _ => none

/-- The sum over a stack. -/
def weigh (g : PState → Nat) (l : List PState) : Int := (l.map fun q => (g q : Int)).sum

theorem weigh_cons {g : PState → Nat} {q : PState} {l : List PState} : weigh g (q :: l) = g q + weigh g l := by simp [weigh]

theorem weigh_nonneg {g : PState → Nat} {l : List PState} : 0 ≤ weigh g l := by
  induction l with
  | nil => simp [weigh]
  | cons q l ih => rw [weigh_cons]; omega

/-- States of block mappings. -/
def inMapping (q : PState) : Prop := q = .blockMappingKey ∨ q = .blockMappingValue

/-- A sequence without indentation is inside of a block mapping. -/
def Stacked : List PState → Prop
  | [] => True
  | q :: l => (q = .indentlessSequenceEntry → ∃ p r, l = p :: r ∧ inMapping p) ∧ Stacked l

theorem stacked_weight {l : List PState} (h : Stacked l) : weigh openW l ≤ 2 * (weigh blockW l + weigh flowW l) := by
  have key : ∀ n, ∀ l : List PState, l.length ≤ n → Stacked l → weigh openW l ≤ 2 * (weigh blockW l + weigh flowW l) := by
    intro n
    induction n with
    | zero =>
      intro l hl _
      obtain rfl := List.eq_nil_of_length_eq_zero (Nat.le_zero.mp hl)
      decide
    | succ n ih =>
      intro l hl h
      cases l with
      | nil => decide
      | cons q l =>
        by_cases hq : q = .indentlessSequenceEntry
        · obtain ⟨p, r, rfl, hp⟩ := h.1 hq
          have := ih r (by simp at hl; omega) h.2.2
          subst hq
          simp only [weigh_cons]
          rcases hp with rfl | rfl <;> simp only [openW, blockW, flowW] <;> omega
        · have := ih l (by simpa using hl) h.2
          simp only [weigh_cons]
          have hw : openW q ≤ 2 * (blockW q + flowW q) := by
            cases q <;> simp_all [openW, blockW, flowW]
          omega
  exact key _ l (Nat.le_refl _) h

section count
variable (f : Nat → Option TokData)

/-- The sum over the first `k` tokens. -/
def netAt (g : TokData → Int) : Nat → Int
  | 0 => 0
  | k + 1 => netAt g k + match f k with
    | none => 0
    | some d => g d

/-- The states `l` and the tokens in front of `pos`: `k` collections are open in the states; the tokens have opened `dB` block collections and `dF`
flow collections more than those, and no more than `b` and `fl`. -/
structure Bal (b fl k dB dF : Int) (l : List PState) (pos : Nat) : Prop where
  opens : k = weigh openW l
  blocks : netAt f deltaB pos = weigh blockW l + dB
  flows : netAt f deltaF pos = weigh flowW l + dF
  leB : netAt f deltaB pos ≤ b
  leF : netAt f deltaF pos ≤ fl
  plain : ∀ q ∈ l, startTok q = none
  chain : Stacked l

/-- A configuration with `k` open collections. -/
def OpenIn (b fl k : Int) (c : AC) : Prop :=
  match startTok c.st with
  | none => Bal f b fl k 0 0 (c.st :: c.stk) c.pos
  | some d => f c.pos = some d ∧ Bal f b fl (k - 1) 0 0 c.stk c.pos

/-- The collections an event opens or closes. -/
def evDelta : EvData → Int
  | .sequenceStart .. | .mappingStart .. => 1
  | .sequenceEnd | .mappingEnd => -1
  | _ => 0

/-- What a step gives: the counts are right, and only the states in front of a start token and the two kinds of collections that are not checked
come from opening a collection. -/
structure Counted (b fl k : Int) (e : EvData) (c : AC) : Prop where
  opened : OpenIn f b fl (k + evDelta e) c
  start : startTok c.st ≠ none → e.opens = true

variable {f} {b fl k dB dF : Int} {l : List PState} {pos : Nat} {q : PState} {d : TokData} {e : EvData} {c c' : AC} {fuel : Nat}

theorem Bal.pass (h : Bal f b fl k dB dF l pos) (hd : f pos = some d) (h1 : deltaB d ≤ 0) (h2 : deltaF d ≤ 0) :
    Bal f b fl k (dB + deltaB d) (dF + deltaF d) l (pos + 1) := by
  have e1 : netAt f deltaB (pos + 1) = netAt f deltaB pos + deltaB d := by simp [netAt, hd]
  have e2 : netAt f deltaF (pos + 1) = netAt f deltaF pos + deltaF d := by simp [netAt, hd]
  refine ⟨h.opens, ?_, ?_, ?_, ?_, h.plain, h.chain⟩
  · rw [e1, h.blocks]; omega
  · rw [e2, h.flows]; omega
  · rw [e1]; have := h.leB; omega
  · rw [e2]; have := h.leF; omega

/-- A token that belongs to no collection. -/
theorem Bal.skip (h : Bal f b fl k dB dF l pos) (hd : f pos = some d) (h1 : deltaB d = 0) (h2 : deltaF d = 0) :
    Bal f b fl k dB dF l (pos + 1) := by
  have := h.pass hd (by omega) (by omega)
  rw [h1, h2, Int.add_zero, Int.add_zero] at this
  exact this

theorem Bal.pack (h : Bal f b fl k dB dF l pos) (hq : startTok q = none) (hs : q = .indentlessSequenceEntry → ∃ p r, l = p :: r ∧ inMapping p) :
    Bal f b fl (k + openW q) (dB - blockW q) (dF - flowW q) (q :: l) pos := by
  refine ⟨?_, ?_, ?_, h.leB, h.leF, ?_, hs, h.chain⟩
  · rw [weigh_cons, h.opens]; omega
  · rw [weigh_cons, h.blocks]; omega
  · rw [weigh_cons, h.flows]; omega
  · intro q' hq'
    rcases List.mem_cons.mp hq' with rfl | hq'
    · exact hq
    · exact h.plain _ hq'

theorem Bal.unpack (h : Bal f b fl k dB dF (q :: l) pos) : Bal f b fl (k - openW q) (dB + blockW q) (dF + flowW q) l pos := by
  have h1 := h.opens
  have h2 := h.blocks
  have h3 := h.flows
  rw [weigh_cons] at h1 h2 h3
  exact ⟨by omega, by omega, by omega, h.leB, h.leF, fun p hp => h.plain p (by simp [hp]), h.chain.2⟩

theorem Bal.cast {k' dB' dF' : Int} (h : Bal f b fl k dB dF l pos) (h1 : k' = k := by omega) (h2 : dB' = dB := by omega) (h3 : dF' = dF := by omega) :
    Bal f b fl k' dB' dF' l pos := by
  subst h1 h2 h3; exact h

theorem gives_pop (h : Bal f b fl (k + evDelta e) 0 0 c.stk c.pos) (hr : c.pop e = some (e, c')) : Counted f b fl k e c' := by
  unfold AC.pop at hr
  split at hr
  · cases hr
  · rename_i q K hq
    cases hr
    have hp : startTok q = none := h.plain q (by rw [hq]; simp)
    refine ⟨?_, fun hn => absurd hp hn⟩
    unfold OpenIn
    simp only [hp]
    rw [hq] at h
    exact h

theorem pop_event {e' : EvData} (h : c.pop e = some (e', c')) : e' = e := by
  unfold AC.pop at h
  split at h
  · cases h
  · cases h; rfl

theorem gives_pop' {e' : EvData} (h : Bal f b fl (k + evDelta e) 0 0 c.stk c.pos) (hr : c.pop e = some (e', c')) : Counted f b fl k e' c' := by
  obtain rfl := pop_event hr
  exact gives_pop h hr

theorem gives_to {e' : EvData} (h : Bal f b fl (k + evDelta e) 0 0 (q :: c.stk) c.pos) (hr : c.to q e = some (e', c')) : Counted f b fl k e' c' := by
  unfold AC.to at hr
  cases hr
  have hp : startTok q = none := h.plain q (by simp)
  refine ⟨?_, fun hn => absurd hp hn⟩
  unfold OpenIn
  simp only [hp]
  exact h

theorem gives_first {e' : EvData} (h : Bal f b fl k 0 0 c.stk c.pos) (hq : startTok q = some d) (hd : f c.pos = some d) (he : e.opens = true)
    (hr : c.to q e = some (e', c')) : Counted f b fl k e' c' := by
  unfold AC.to at hr
  cases hr
  refine ⟨?_, fun _ => he⟩
  unfold OpenIn
  simp only [hq]
  have : evDelta e = 1 := by cases e <;> simp_all [EvData.opens, evDelta]
  exact ⟨hd, h.cast⟩

theorem gives_content {b' i : Bool} {a t : Option Text} (h : Bal f b fl k 0 0 c.stk c.pos) (hi : i = true → ∃ p r, c.stk = p :: r ∧ inMapping p)
    (hr : acontent f b' i a t c = some (e, c')) : Counted f b fl k e c' := by
  unfold acontent at hr
  split at hr
  · cases hr
  · rename_i d hd
    split at hr
    · rename_i hc
      rw [Bool.and_eq_true] at hc
      refine gives_to ?_ hr
      exact (h.pack (q := .indentlessSequenceEntry) rfl fun _ => hi hc.1).cast (h1 := by simp [evDelta, openW]) (h2 := by simp [blockW]) (h3 := by simp [flowW])
    · split at hr
      · exact gives_pop' ((h.skip hd rfl rfl).cast (h1 := by simp [evDelta])) hr
      · exact gives_first h rfl hd rfl hr
      · exact gives_first h rfl hd rfl hr
      · split at hr
        · rename_i hc
          rw [Bool.and_eq_true, beq_iff_eq] at hc
          exact gives_first h rfl (by rw [hd, hc.2]) rfl hr
        · split at hr
          · rename_i hc
            rw [Bool.and_eq_true, beq_iff_eq] at hc
            exact gives_first h rfl (by rw [hd, hc.2]) rfl hr
          · split at hr
            · exact gives_pop' (h.cast (h1 := by simp [evDelta])) hr
            · cases hr

theorem bal_props {a : Option Text} {t : Option (Text × Text)} {k' : Nat} (h : Bal f b fl k dB dF l pos) (hr : aprops f pos = some (a, t, k')) :
    Bal f b fl k dB dF l k' := by
  unfold aprops at hr
  split at hr
  · cases hr
  · rename_i hd
    split at hr
    · cases hr
    · rename_i hd'
      split at hr
      · cases hr
      · cases hr; exact (h.skip hd rfl rfl).skip hd' rfl rfl
    · cases hr; exact h.skip hd rfl rfl
  · rename_i hd
    split at hr
    · cases hr
    · rename_i hd'
      split at hr
      · cases hr
      · cases hr; exact (h.skip hd rfl rfl).skip hd' rfl rfl
    · cases hr; exact h.skip hd rfl rfl
  · cases hr; exact h

theorem gives_node {b' i : Bool} (h : Bal f b fl k 0 0 c.stk c.pos) (hi : i = true → ∃ p r, c.stk = p :: r ∧ inMapping p)
    (hr : anode f b' i c = some (e, c')) : Counted f b fl k e c' := by
  unfold anode at hr
  split at hr
  · cases hr
  · rename_i hd
    exact gives_pop' ((h.skip hd rfl rfl).cast (h1 := by simp [evDelta])) hr
  · split at hr
    · cases hr
    · rename_i a t k' hp
      split at hr
      · cases hr
      · exact gives_content (c := { c with pos := k' }) (bal_props h hp) hi hr

theorem gives_opt {b' i : Bool} {stop : List TokData} (h : Bal f b fl k 0 0 (q :: c.stk) c.pos) (hi : i = true → inMapping q)
    (hr : aopt f b' i stop q c = some (e, c')) : Counted f b fl k e c' := by
  unfold aopt at hr
  split at hr
  · cases hr
  · split at hr
    · exact gives_to (h.cast (h1 := by simp [evDelta, absent])) hr
    · exact gives_node (c := c.push q) h (fun hi' => ⟨q, c.stk, rfl, hi hi'⟩) hr

/-- In a block sequence. -/
theorem gives_blockSeq (h : Bal f b fl (k - 1) 1 0 c.stk c.pos) (hr : ablockSeq f c = some (e, c')) : Counted f b fl k e c' := by
  unfold ablockSeq at hr
  split at hr
  · rename_i hd
    refine gives_opt ?_ (by simp) hr
    exact ((h.skip hd rfl rfl).pack (q := .blockSequenceEntry) rfl (by simp)).cast (h1 := by simp [openW]) (h2 := by simp [blockW]) (h3 := by simp [flowW])
  · rename_i hd
    refine gives_pop' ?_ hr
    exact (h.pass hd (by decide) (by decide)).cast (h1 := by simp [evDelta]; omega) (h2 := by decide) (h3 := by decide)
  · cases hr

theorem gives_indentless (h : Bal f b fl (k - 1) 0 0 c.stk c.pos) (hs : ∃ p r, c.stk = p :: r ∧ inMapping p) (hr : aindentless f c = some (e, c')) :
    Counted f b fl k e c' := by
  unfold aindentless at hr
  split at hr
  · cases hr
  · rename_i hd
    refine gives_opt ?_ (by simp) hr
    exact ((h.skip hd rfl rfl).pack (q := .indentlessSequenceEntry) rfl fun _ => hs).cast (h1 := by simp [openW]) (h2 := by simp [blockW]) (h3 := by simp [flowW])
  · exact gives_pop' (h.cast (h1 := by simp [evDelta]; omega)) hr

theorem gives_blockKey (h : Bal f b fl (k - 1) 1 0 c.stk c.pos) (hr : ablockKey f c = some (e, c')) : Counted f b fl k e c' := by
  unfold ablockKey at hr
  split at hr
  · rename_i hd
    refine gives_opt ?_ (fun _ => .inr rfl) hr
    exact ((h.skip hd rfl rfl).pack (q := .blockMappingValue) rfl (by simp)).cast (h1 := by simp [openW]) (h2 := by simp [blockW]) (h3 := by simp [flowW])
  · rename_i hd
    refine gives_pop' ?_ hr
    exact (h.pass hd (by decide) (by decide)).cast (h1 := by simp [evDelta]; omega) (h2 := by decide) (h3 := by decide)
  · cases hr

theorem gives_blockValue (h : Bal f b fl (k - 1) 1 0 c.stk c.pos) (hr : ablockValue f c = some (e, c')) : Counted f b fl k e c' := by
  unfold ablockValue at hr
  have hp : ∀ {pos}, Bal f b fl (k - 1) 1 0 c.stk pos → Bal f b fl k 0 0 (.blockMappingKey :: c.stk) pos := fun h =>
    (h.pack (q := .blockMappingKey) rfl (by simp)).cast (h1 := by simp [openW]) (h2 := by simp [blockW]) (h3 := by simp [flowW])
  split at hr
  · cases hr
  · rename_i hd
    exact gives_opt (c := c.next) (hp (h.skip hd rfl rfl)) (fun _ => .inl rfl) hr
  · exact gives_to ((hp h).cast (h1 := by simp [evDelta, absent])) hr

theorem gives_flowItem (h : Bal f b fl (k - 1) 0 1 c.stk c.pos) (hr : aflowItem f c = some (e, c')) : Counted f b fl k e c' := by
  unfold aflowItem at hr
  split at hr
  · cases hr
  · rename_i hd
    refine gives_to ?_ hr
    exact ((h.skip hd rfl rfl).pack (q := .flowSequenceEntryMappingKey) rfl (by simp)).cast (h1 := by simp [openW, evDelta]; omega) (h2 := by simp [blockW]) (h3 := by simp [flowW])
  · rename_i hd
    refine gives_pop' ?_ hr
    exact (h.pass hd (by decide) (by decide)).cast (h1 := by simp [evDelta]; omega) (h2 := by decide) (h3 := by decide)
  · refine gives_node (c := c.push .flowSequenceEntry) ?_ (by simp) hr
    exact (h.pack (q := .flowSequenceEntry) rfl (by simp)).cast (h1 := by simp [openW]) (h2 := by simp [blockW]) (h3 := by simp [flowW])

theorem gives_flowSeq (h : Bal f b fl (k - 1) 0 1 c.stk c.pos) (hr : aflowSeq f c = some (e, c')) : Counted f b fl k e c' := by
  unfold aflowSeq at hr
  split at hr
  · rename_i hd
    refine gives_pop' ?_ hr
    exact (h.pass hd (by decide) (by decide)).cast (h1 := by simp [evDelta]; omega) (h2 := by decide) (h3 := by decide)
  · rename_i hd
    exact gives_flowItem (c := c.next) (h.skip hd rfl rfl) hr
  · cases hr

theorem gives_pairKey (h : Bal f b fl (k - 2) 0 1 c.stk c.pos) (hr : apairKey f c = some (e, c')) : Counted f b fl k e c' := by
  unfold apairKey at hr
  have hp : ∀ {pos}, Bal f b fl (k - 2) 0 1 c.stk pos → Bal f b fl k 0 0 (.flowSequenceEntryMappingValue :: c.stk) pos := fun h =>
    (h.pack (q := .flowSequenceEntryMappingValue) rfl (by simp)).cast (h1 := by simp [openW]) (h2 := by simp [blockW]) (h3 := by simp [flowW])
  split at hr
  · cases hr
  · exact gives_to ((hp h).cast (h1 := by simp [evDelta, absent])) hr
  · rename_i hd
    exact gives_to ((hp (h.skip hd rfl rfl)).cast (h1 := by simp [evDelta, absent])) hr
  · rename_i hd
    exact gives_to ((hp (h.skip hd rfl rfl)).cast (h1 := by simp [evDelta, absent])) hr
  · exact gives_node (c := c.push .flowSequenceEntryMappingValue) (hp h) (by simp) hr

theorem gives_pairValue (h : Bal f b fl (k - 2) 0 1 c.stk c.pos) (hr : apairValue f c = some (e, c')) : Counted f b fl k e c' := by
  unfold apairValue at hr
  have hp : ∀ {pos}, Bal f b fl (k - 2) 0 1 c.stk pos → Bal f b fl k 0 0 (.flowSequenceEntryMappingEnd :: c.stk) pos := fun h =>
    (h.pack (q := .flowSequenceEntryMappingEnd) rfl (by simp)).cast (h1 := by simp [openW]) (h2 := by simp [blockW]) (h3 := by simp [flowW])
  split at hr
  · cases hr
  · rename_i hd
    exact gives_opt (c := c.next) (hp (h.skip hd rfl rfl)) (by simp) hr
  · exact gives_to ((hp h).cast (h1 := by simp [evDelta, absent])) hr

theorem gives_pairEnd (h : Bal f b fl (k - 2) 0 1 c.stk c.pos) (hr : apairEnd f c = some (e, c')) : Counted f b fl k e c' := by
  unfold apairEnd at hr
  split at hr
  · cases hr
  · refine gives_to ?_ hr
    exact (h.pack (q := .flowSequenceEntry) rfl (by simp)).cast (h1 := by simp [openW, evDelta]; omega) (h2 := by simp [blockW]) (h3 := by simp [flowW])

theorem gives_flowPair (h : Bal f b fl (k - 1) 0 1 c.stk c.pos) (hr : aflowPair f c = some (e, c')) : Counted f b fl k e c' := by
  unfold aflowPair at hr
  split at hr
  · cases hr
  · rename_i hd
    refine gives_opt ?_ (by simp) hr
    exact ((h.skip hd rfl rfl).pack (q := .flowMappingValue) rfl (by simp)).cast (h1 := by simp [openW]) (h2 := by simp [blockW]) (h3 := by simp [flowW])
  · rename_i hd
    refine gives_pop' ?_ hr
    exact (h.pass hd (by decide) (by decide)).cast (h1 := by simp [evDelta]; omega) (h2 := by decide) (h3 := by decide)
  · refine gives_node (c := c.push .flowMappingEmptyValue) ?_ (by simp) hr
    exact (h.pack (q := .flowMappingEmptyValue) rfl (by simp)).cast (h1 := by simp [openW]) (h2 := by simp [blockW]) (h3 := by simp [flowW])

theorem gives_flowMap (h : Bal f b fl (k - 1) 0 1 c.stk c.pos) (hr : aflowMap f c = some (e, c')) : Counted f b fl k e c' := by
  unfold aflowMap at hr
  split at hr
  · rename_i hd
    refine gives_pop' ?_ hr
    exact (h.pass hd (by decide) (by decide)).cast (h1 := by simp [evDelta]; omega) (h2 := by decide) (h3 := by decide)
  · rename_i hd
    exact gives_flowPair (c := c.next) (h.skip hd rfl rfl) hr
  · cases hr

theorem gives_flowValue (h : Bal f b fl (k - 1) 0 1 c.stk c.pos) (hr : aflowValue f c = some (e, c')) : Counted f b fl k e c' := by
  unfold aflowValue at hr
  have hp : ∀ {pos}, Bal f b fl (k - 1) 0 1 c.stk pos → Bal f b fl k 0 0 (.flowMappingKey :: c.stk) pos := fun h =>
    (h.pack (q := .flowMappingKey) rfl (by simp)).cast (h1 := by simp [openW]) (h2 := by simp [blockW]) (h3 := by simp [flowW])
  split at hr
  · cases hr
  · rename_i hd
    exact gives_opt (c := c.next) (hp (h.skip hd rfl rfl)) (by simp) hr
  · exact gives_to ((hp h).cast (h1 := by simp [evDelta, absent])) hr

theorem gives_flowEmpty (h : Bal f b fl (k - 1) 0 1 c.stk c.pos) (hr : aflowEmpty f c = some (e, c')) : Counted f b fl k e c' := by
  unfold aflowEmpty at hr
  split at hr
  · cases hr
  · refine gives_to ?_ hr
    exact (h.pack (q := .flowMappingKey) rfl (by simp)).cast (h1 := by simp [openW, evDelta, absent]) (h2 := by simp [blockW]) (h3 := by simp [flowW])

/-! ### Documents -/

theorem bal_skip {k' : Nat} (h : Bal f b fl k dB dF l pos) (hr : askip f fuel pos = some k') : Bal f b fl k dB dF l k' := by
  induction fuel generalizing pos with
  | zero => cases hr
  | succ fuel ih =>
    unfold askip at hr
    split at hr
    · cases hr
    · rename_i hd
      exact ih (h.skip hd rfl rfl) hr
    · cases hr; exact h

theorem bal_dirs {v : Option Version} {ts tbl : List TagDir} {r : Option Version × List TagDir × List TagDir × Nat} (h : Bal f b fl k dB dF l pos)
    (hr : adirs f fuel v ts tbl pos = some r) : Bal f b fl k dB dF l r.2.2.2 := by
  induction fuel generalizing pos v ts tbl with
  | zero => cases hr
  | succ fuel ih =>
    unfold adirs at hr
    split at hr
    · cases hr
    · rename_i hd
      split at hr
      · cases hr
      · split at hr
        · cases hr
        · exact ih (h.skip hd rfl rfl) hr
    · rename_i hd
      split at hr
      · cases hr
      · exact ih (h.skip hd rfl rfl) hr
    · cases hr; exact h

theorem gives_explicit (h : Bal f b fl k 0 0 c.stk c.pos) (hr : aexplicit f fuel c = some (e, c')) : Counted f b fl k e c' := by
  unfold aexplicit at hr
  split at hr
  · cases hr
  · rename_i hd
    refine gives_to ?_ hr
    exact ((h.skip hd rfl rfl).pack (q := .done) rfl (by simp)).cast (h1 := by simp [openW, evDelta]) (h2 := by simp [blockW]) (h3 := by simp [flowW])
  · split at hr
    · cases hr
    · rename_i v ts tbl k' hdir
      split at hr
      · rename_i hd
        cases hr
        have h1 := bal_dirs h hdir
        have h2 := ((h1.skip hd rfl rfl).pack (q := .documentEnd) rfl (by simp)).pack (q := .documentContent) rfl (by simp)
        refine ⟨?_, by simp [startTok]⟩
        show Bal f b fl _ 0 0 _ _
        exact h2.cast (h1 := by simp [openW, evDelta]) (h2 := by simp [blockW]) (h3 := by simp [flowW])
      · cases hr

theorem gives_docEnd (h : Bal f b fl k 0 0 c.stk c.pos) (hr : adocEnd f c = some (e, c')) : Counted f b fl k e c' := by
  have hp : ∀ {pos}, Bal f b fl k 0 0 c.stk pos → Bal f b fl k 0 0 (.documentStart :: c.stk) pos := fun h =>
    (h.pack (q := .documentStart) rfl (by simp)).cast (h1 := by simp [openW]) (h2 := by simp [blockW]) (h3 := by simp [flowW])
  unfold adocEnd at hr
  split at hr
  · cases hr
  · rename_i hd
    cases hr
    exact ⟨(hp (h.skip hd rfl rfl)).cast (h1 := by simp [evDelta]), by simp [startTok]⟩
  · cases hr
    exact ⟨(hp h).cast (h1 := by simp [evDelta]), by simp [startTok]⟩

/-- The tokens that have been read, and the one that opens the collection the parser is in front of. -/
def AC.upto (c : AC) : Nat := if (startTok c.st).isSome then c.pos + 1 else c.pos

/-- One step. -/
theorem gives_step (h : OpenIn f b fl k c) (hr : astep f fuel c = some (e, c')) :
    Counted f (netAt f deltaB c.upto) (netAt f deltaF c.upto) k e c' := by
  -- a state in which no token is missing
  have hin : startTok c.st = none → Bal f (netAt f deltaB c.upto) (netAt f deltaF c.upto) (k - openW c.st) (blockW c.st) (flowW c.st) c.stk c.pos := by
    intro hs
    unfold OpenIn at h
    rw [hs] at h
    have hu : c.upto = c.pos := by unfold AC.upto; rw [hs]; rfl
    rw [hu]
    have := h.unpack
    exact ⟨this.opens, by rw [this.blocks]; omega, by rw [this.flows]; omega, Int.le_refl _, Int.le_refl _, this.plain, this.chain⟩
  -- in front of the token
  have hfirst : ∀ {d}, startTok c.st = some d →
      Bal f (netAt f deltaB c.upto) (netAt f deltaF c.upto) (k - 1) (deltaB d) (deltaF d) c.next.stk c.next.pos := by
    intro d hs
    unfold OpenIn at h
    rw [hs] at h
    obtain ⟨hd, h⟩ := h
    have hu : c.upto = c.pos + 1 := by unfold AC.upto; rw [hs]; rfl
    rw [hu]
    have e1 : netAt f deltaB (c.pos + 1) = netAt f deltaB c.pos + deltaB d := by simp [netAt, hd]
    have e2 : netAt f deltaF (c.pos + 1) = netAt f deltaF c.pos + deltaF d := by simp [netAt, hd]
    exact ⟨h.opens, by show netAt f deltaB (c.pos + 1) = weigh blockW c.stk + _; rw [e1, h.blocks]; omega,
      by show netAt f deltaF (c.pos + 1) = weigh flowW c.stk + _; rw [e2, h.flows]; omega, Int.le_refl _, Int.le_refl _, h.plain, h.chain⟩
  unfold astep at hr
  have hchain : c.st = .indentlessSequenceEntry → ∃ p r, c.stk = p :: r ∧ inMapping p := by
    intro hs
    unfold OpenIn at h
    rw [hs] at h
    exact h.chain.1 rfl
  cases hs : c.st <;> simp only [hs] at hr
  case streamStart =>
    have hb := hin (by rw [hs]; rfl)
    rw [hs] at hb
    split at hr
    · rename_i hd
      refine gives_to ?_ hr
      exact ((hb.skip hd rfl rfl).pack (q := .implicitDocumentStart) rfl (by simp)).cast (h1 := by simp [openW, evDelta]) (h2 := by simp [blockW]) (h3 := by simp [flowW])
    · cases hr
  case implicitDocumentStart =>
    have hb := hin (by rw [hs]; rfl)
    rw [hs] at hb
    split at hr
    · cases hr
    · split at hr
      · exact gives_explicit (hb.cast (h1 := by simp [openW]) (h2 := by simp [blockW]) (h3 := by simp [flowW])) hr
      · split at hr
        · cases hr
        · cases hr
          refine ⟨?_, by simp [startTok]⟩
          exact ((hb.pack (q := .documentEnd) rfl (by simp)).pack (q := .blockNode) rfl (by simp)).cast (h1 := by simp [openW, evDelta]) (h2 := by simp [blockW]) (h3 := by simp [flowW])
  case documentStart =>
    have hb := hin (by rw [hs]; rfl)
    rw [hs] at hb
    split at hr
    · cases hr
    · rename_i hk
      exact gives_explicit (c := { c with pos := _ }) ((bal_skip hb hk).cast (h1 := by simp [openW]) (h2 := by simp [blockW]) (h3 := by simp [flowW])) hr
  case documentContent =>
    have hb := hin (by rw [hs]; rfl)
    rw [hs] at hb
    split at hr
    · cases hr
    · split at hr
      · exact gives_pop' (hb.cast (h1 := by simp [openW, evDelta, absent]) (h2 := by simp [blockW]) (h3 := by simp [flowW])) hr
      · exact gives_node (hb.cast (h1 := by simp [openW]) (h2 := by simp [blockW]) (h3 := by simp [flowW])) (by simp) hr
  case documentEnd =>
    have hb := hin (by rw [hs]; rfl)
    rw [hs] at hb
    exact gives_docEnd (hb.cast (h1 := by simp [openW]) (h2 := by simp [blockW]) (h3 := by simp [flowW])) hr
  case blockNode =>
    have hb := hin (by rw [hs]; rfl)
    rw [hs] at hb
    exact gives_node (hb.cast (h1 := by simp [openW]) (h2 := by simp [blockW]) (h3 := by simp [flowW])) (by simp) hr
  case blockSequenceFirstEntry =>
    split at hr
    · cases hr
    · exact gives_blockSeq (hfirst (d := .blockSequenceStart) (by rw [hs]; rfl)) hr
  case blockMappingFirstKey =>
    split at hr
    · cases hr
    · exact gives_blockKey (hfirst (d := .blockMappingStart) (by rw [hs]; rfl)) hr
  case flowSequenceFirstEntry =>
    split at hr
    · cases hr
    · exact gives_flowItem (hfirst (d := .flowSequenceStart) (by rw [hs]; rfl)) hr
  case flowMappingFirstKey =>
    split at hr
    · cases hr
    · exact gives_flowPair (hfirst (d := .flowMappingStart) (by rw [hs]; rfl)) hr
  case done => cases hr
  all_goals
    have hb := hin (by rw [hs]; rfl)
    rw [hs] at hb
    simp only [openW, blockW, flowW] at hb
  case blockSequenceEntry => exact gives_blockSeq hb hr
  case indentlessSequenceEntry => exact gives_indentless hb (hchain hs) hr
  case blockMappingKey => exact gives_blockKey hb hr
  case blockMappingValue => exact gives_blockValue hb hr
  case flowSequenceEntry => exact gives_flowSeq hb hr
  case flowSequenceEntryMappingKey => exact gives_pairKey hb hr
  case flowSequenceEntryMappingValue => exact gives_pairValue hb hr
  case flowSequenceEntryMappingEnd => exact gives_pairEnd hb hr
  case flowMappingKey => exact gives_flowMap hb hr
  case flowMappingValue => exact gives_flowValue hb hr
  case flowMappingEmptyValue => exact gives_flowEmpty hb hr

end count

end LibYaml
