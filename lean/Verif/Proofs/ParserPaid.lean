import Verif.Proofs.GrammarComplete

/-!
Every call of the parser is paid for by tokens: each token pays for four calls, states and the stack hold what is paid in advance.
-/

namespace LibYaml

open Spec

/-- Calls without consuming a token that may follow. -/
def PState.cost : PState → Nat
  | .documentEnd | .blockNode | .documentContent | .indentlessSequenceEntry | .flowSequenceEntryMappingEnd | .blockMappingValue
  | .flowMappingValue | .flowMappingEmptyValue => 1
  | .flowSequenceEntryMappingValue => 2
  | .implicitDocumentStart | .flowSequenceEntryMappingKey => 3
  | _ => 0

/-- Cost of the stack. -/
def stackCost (K : List PState) : Nat := (K.map PState.cost).sum

/-- STREAM-END has not been passed. -/
structure Ahead (f : Nat → Option TokData) (k : Nat) (K : List PState) : Prop where
  clean : ∀ j, j < k → f j ≠ some .streamEnd
  stk : ∀ q ∈ K, q.isFirst = false

/-- Between two calls. -/
structure PaidInv (f : Nat → Option TokData) (c : AC) : Prop extends Ahead f c.pos c.stk where
  first : c.st.isFirst = true → f c.pos ≠ some .streamEnd

/-- The result leaves `A` paid. -/
def Pays (f : Nat → Option TokData) (A : Int) (r : AOut) : Prop :=
  ∀ e c, r = some (e, c) → c.st.cost + stackCost c.stk + 1 + A ≤ 4 * c.pos ∧ PaidInv f c ∧ e ≠ .streamEnd

section
variable {f : Nat → Option TokData} {A : Int} {c : AC}

theorem pays_none : Pays f A none := fun _ _ h => by cases h

theorem ahead_next {d : TokData} (h : Ahead f c.pos c.stk) (hd : f c.pos = some d) (hne : d ≠ .streamEnd) :
    Ahead f c.next.pos c.next.stk := by
  refine ⟨fun j hj => ?_, h.stk⟩
  have hj : j < c.pos + 1 := hj
  by_cases he : j = c.pos
  · rw [he, hd]; simpa using hne
  · exact h.clean j (by omega)

theorem pays_pop {d : EvData} (h : Ahead f c.pos c.stk) (hd : d ≠ .streamEnd) (hA : stackCost c.stk + 1 + A ≤ 4 * c.pos) :
    Pays f A (c.pop d) := by
  intro e c' hr
  unfold AC.pop at hr
  cases hs : c.stk with
  | nil => rw [hs] at hr; cases hr
  | cons q K =>
    rw [hs] at hr
    cases hr
    rw [hs] at hA
    have hk := h.stk
    rw [hs] at hk
    refine ⟨by simp only [stackCost, List.map_cons, List.sum_cons] at hA ⊢; omega, ⟨⟨h.clean, fun x hx => hk x (.tail _ hx)⟩, fun hf => ?_⟩, hd⟩
    have := hk q (.head _)
    simp only at hf
    rw [this] at hf; cases hf

theorem pays_to {q : PState} {d : EvData} (h : Ahead f c.pos c.stk) (hd : d ≠ .streamEnd) (hq : q.isFirst = true → f c.pos ≠ some .streamEnd)
    (hA : q.cost + stackCost c.stk + 1 + A ≤ 4 * c.pos) : Pays f A (c.to q d) := by
  intro e c' hr
  cases hr
  exact ⟨hA, ⟨⟨h.clean, h.stk⟩, hq⟩, hd⟩

theorem before_push {q : PState} (h : Ahead f c.pos c.stk) (hq : q.isFirst = false) : Ahead f (c.push q).pos (c.push q).stk :=
  ⟨h.clean, fun x hx => by rcases List.mem_cons.mp hx with rfl | hx; exact hq; exact h.stk x hx⟩

theorem pays_content {b i : Bool} {a t : Option Text} (h : Ahead f c.pos c.stk)
    (hA : stackCost c.stk + (if i then 2 else 1) + A ≤ 4 * c.pos) : Pays f A (acontent f b i a t c) := by
  unfold acontent
  cases hd : f c.pos with
  | none => exact pays_none
  | some d =>
    simp only
    have hA1 : (stackCost c.stk : Int) + 1 + A ≤ 4 * c.pos := by cases i <;> simp at hA <;> omega
    have hto : ∀ (q : PState) (ev : EvData), d ≠ .streamEnd → ev ≠ .streamEnd → q.cost = 0 → Pays f A (c.to q ev) := fun q ev h1 h2 h3 =>
      pays_to h h2 (fun _ => by rw [hd]; simpa using h1) (by rw [h3]; omega)
    split
    next hi =>
      simp only [Bool.and_eq_true, beq_iff_eq] at hi
      refine pays_to h (by simp) (by intro hf; cases hf) ?_
      rw [hi.1] at hA
      simp only [PState.cost, if_true] at hA ⊢
      omega
    split
    · exact pays_pop (ahead_next h hd (by simp)) (by simp) (by show (stackCost c.stk : Int) + 1 + A ≤ 4 * ((c.pos + 1 : Nat) : Int); omega)
    · exact hto _ _ (by simp) (by simp) rfl
    · exact hto _ _ (by simp) (by simp) rfl
    · split
      next hb => exact hto _ _ (by rintro rfl; simp at hb) (by simp) rfl
      split
      next hb => exact hto _ _ (by rintro rfl; simp at hb) (by simp) rfl
      split
      · exact pays_pop h (by simp) hA1
      · exact pays_none

theorem aprops_before {k k' : Nat} {a : Option Text} {t : Option (Text × Text)} {K : List PState} (h : Ahead f k K)
    (hp : aprops f k = some (a, t, k')) : k ≤ k' ∧ Ahead f k' K := by
  have step : ∀ {k : Nat} {d : TokData}, Ahead f k K → f k = some d → d ≠ .streamEnd → Ahead f (k + 1) K := by
    intro k d h hd hne
    refine ⟨fun j hj => ?_, h.stk⟩
    by_cases he : j = k
    · rw [he, hd]; simpa using hne
    · exact h.clean j (by omega)
  unfold aprops at hp
  split at hp
  · cases hp
  next a hd =>
    split at hp
    · cases hp
    next hd2 =>
      split at hp
      · cases hp
      · cases hp; exact ⟨by omega, step (step h hd (by simp)) hd2 (by simp)⟩
    · cases hp; exact ⟨by omega, step h hd (by simp)⟩
  next hd =>
    split at hp
    · cases hp
    next hd2 =>
      split at hp
      · cases hp
      · cases hp; exact ⟨by omega, step (step h hd (by simp)) hd2 (by simp)⟩
    · cases hp; exact ⟨by omega, step h hd (by simp)⟩
  · cases hp; exact ⟨by omega, h⟩

theorem pays_node {b i : Bool} (h : Ahead f c.pos c.stk) (hA : stackCost c.stk + (if i then 2 else 1) + A ≤ 4 * c.pos) :
    Pays f A (anode f b i c) := by
  have hA1 : (stackCost c.stk : Int) + 1 + A ≤ 4 * c.pos := by cases i <;> simp at hA <;> omega
  unfold anode
  split
  · exact pays_none
  next hd =>
    exact pays_pop (ahead_next h hd (by simp)) (by simp) (by show (stackCost c.stk : Int) + 1 + A ≤ 4 * ((c.pos + 1 : Nat) : Int); omega)
  · split
    · exact pays_none
    next hp =>
      split
      · exact pays_none
      · obtain ⟨h1, h2⟩ := aprops_before h hp
        refine pays_content (c := { c with pos := _ }) h2 ?_
        simp only
        cases i <;> simp only [if_true, if_false, Bool.false_eq_true] at hA ⊢ <;> omega

theorem pays_opt {b i : Bool} {stop : List TokData} {q : PState} (h : Ahead f c.pos c.stk) (hq : q.isFirst = false)
    (hA : q.cost + stackCost c.stk + (if i then 2 else 1) + A ≤ 4 * c.pos) : Pays f A (aopt f b i stop q c) := by
  unfold aopt
  split
  · exact pays_none
  · split
    · refine pays_to h (by simp [absent]) (by intro hf; rw [hq] at hf; cases hf) ?_
      cases i <;> simp at hA <;> omega
    · refine pays_node (before_push h hq) ?_
      show ((stackCost (q :: c.stk) : Nat) : Int) + (if i then 2 else 1) + A ≤ 4 * ((c.pos : Nat) : Int)
      simp only [stackCost, List.map_cons, List.sum_cons] at hA ⊢
      omega

theorem next_pos : ((c.next.pos : Nat) : Int) = c.pos + 1 := by simp [AC.next]
theorem next_stk : c.next.stk = c.stk := rfl

/-- Arithmetic of costs. -/
macro "cost" : tactic => `(tactic| (simp only [next_pos, next_stk, PState.cost, if_true, Bool.false_eq_true, if_false, AC.push, stackCost, List.map_cons, List.sum_cons] at *; omega))

theorem pays_blockSeq (h : Ahead f c.pos c.stk) (hA : stackCost c.stk + A ≤ 4 * c.pos) : Pays f A (ablockSeq f c) := by
  unfold ablockSeq
  split
  next hd => exact pays_opt (ahead_next h hd (by simp)) rfl (by cost)
  next hd => exact pays_pop (ahead_next h hd (by simp)) (by simp) (by cost)
  · exact pays_none

theorem pays_indentless (h : Ahead f c.pos c.stk) (hA : stackCost c.stk + 1 + A ≤ 4 * c.pos) : Pays f A (aindentless f c) := by
  unfold aindentless
  split
  · exact pays_none
  next hd => exact pays_opt (ahead_next h hd (by simp)) rfl (by cost)
  · exact pays_pop h (by simp) (by cost)

theorem pays_blockKey (h : Ahead f c.pos c.stk) (hA : stackCost c.stk + A ≤ 4 * c.pos) : Pays f A (ablockKey f c) := by
  unfold ablockKey
  split
  next hd => exact pays_opt (ahead_next h hd (by simp)) rfl (by cost)
  next hd => exact pays_pop (ahead_next h hd (by simp)) (by simp) (by cost)
  · exact pays_none

theorem pays_blockValue (h : Ahead f c.pos c.stk) (hA : stackCost c.stk + 1 + A ≤ 4 * c.pos) : Pays f A (ablockValue f c) := by
  unfold ablockValue
  split
  · exact pays_none
  next hd => exact pays_opt (ahead_next h hd (by simp)) rfl (by cost)
  · exact pays_to h (by simp [absent]) (by intro hf; cases hf) (by cost)

theorem pays_flowItem (h : Ahead f c.pos c.stk) (hA : stackCost c.stk + 1 + A ≤ 4 * c.pos) : Pays f A (aflowItem f c) := by
  unfold aflowItem
  split
  · exact pays_none
  next hd => exact pays_to (ahead_next h hd (by simp)) (by simp) (by intro hf; cases hf) (by cost)
  next hd => exact pays_pop (ahead_next h hd (by simp)) (by simp) (by cost)
  · exact pays_node (before_push h rfl) (by cost)

theorem pays_flowSeq (h : Ahead f c.pos c.stk) (hA : stackCost c.stk + A ≤ 4 * c.pos) : Pays f A (aflowSeq f c) := by
  unfold aflowSeq
  split
  next hd => exact pays_pop (ahead_next h hd (by simp)) (by simp) (by cost)
  next hd => exact pays_flowItem (ahead_next h hd (by simp)) (by cost)
  · exact pays_none

theorem pays_pairKey (h : Ahead f c.pos c.stk) (hA : stackCost c.stk + 3 + A ≤ 4 * c.pos) : Pays f A (apairKey f c) := by
  unfold apairKey
  split
  · exact pays_none
  · exact pays_to h (by simp [absent]) (by intro hf; cases hf) (by cost)
  next hd => exact pays_to (ahead_next h hd (by simp)) (by simp [absent]) (by intro hf; cases hf) (by cost)
  next hd => exact pays_to (ahead_next h hd (by simp)) (by simp [absent]) (by intro hf; cases hf) (by cost)
  · exact pays_node (before_push h rfl) (by cost)

theorem pays_pairValue (h : Ahead f c.pos c.stk) (hA : stackCost c.stk + 2 + A ≤ 4 * c.pos) : Pays f A (apairValue f c) := by
  unfold apairValue
  split
  · exact pays_none
  next hd => exact pays_opt (ahead_next h hd (by simp)) rfl (by cost)
  · exact pays_to h (by simp [absent]) (by intro hf; cases hf) (by cost)

theorem pays_pairEnd (h : Ahead f c.pos c.stk) (hA : stackCost c.stk + 1 + A ≤ 4 * c.pos) : Pays f A (apairEnd f c) := by
  unfold apairEnd
  split
  · exact pays_none
  · exact pays_to h (by simp) (by intro hf; cases hf) (by cost)

theorem pays_flowPair (h : Ahead f c.pos c.stk) (hA : stackCost c.stk + 2 + A ≤ 4 * c.pos) : Pays f A (aflowPair f c) := by
  unfold aflowPair
  split
  · exact pays_none
  next hd => exact pays_opt (ahead_next h hd (by simp)) rfl (by cost)
  next hd => exact pays_pop (ahead_next h hd (by simp)) (by simp) (by cost)
  · exact pays_node (before_push h rfl) (by cost)

theorem pays_flowMap (h : Ahead f c.pos c.stk) (hA : stackCost c.stk + A ≤ 4 * c.pos) : Pays f A (aflowMap f c) := by
  unfold aflowMap
  split
  next hd => exact pays_pop (ahead_next h hd (by simp)) (by simp) (by cost)
  next hd => exact pays_flowPair (ahead_next h hd (by simp)) (by cost)
  · exact pays_none

theorem pays_flowValue (h : Ahead f c.pos c.stk) (hA : stackCost c.stk + 1 + A ≤ 4 * c.pos) : Pays f A (aflowValue f c) := by
  unfold aflowValue
  split
  · exact pays_none
  next hd => exact pays_opt (ahead_next h hd (by simp)) rfl (by cost)
  · exact pays_to h (by simp [absent]) (by intro hf; cases hf) (by cost)

theorem pays_flowEmpty (h : Ahead f c.pos c.stk) (hA : stackCost c.stk + 1 + A ≤ 4 * c.pos) : Pays f A (aflowEmpty f c) := by
  unfold aflowEmpty
  split
  · exact pays_none
  · exact pays_to h (by simp [absent]) (by intro hf; cases hf) (by cost)

theorem pays_docEnd (h : Ahead f c.pos c.stk) (hA : stackCost c.stk + 1 + A ≤ 4 * c.pos) : Pays f A (adocEnd f c) := by
  unfold adocEnd
  split
  · exact pays_none
  next hd =>
    intro e c' hr
    cases hr
    exact ⟨by cost, ⟨ahead_next h hd (by simp), by intro hf; cases hf⟩, by simp⟩
  · intro e c' hr
    cases hr
    exact ⟨by cost, ⟨h, by intro hf; cases hf⟩, by simp⟩

theorem askip_before {K : List PState} {fuel k k' : Nat} (h : Ahead f k K) (hs : askip f fuel k = some k') : k ≤ k' ∧ Ahead f k' K := by
  induction fuel generalizing k with
  | zero => cases hs
  | succ fuel ih =>
    unfold askip at hs
    split at hs
    · cases hs
    next hd =>
      obtain ⟨h1, h2⟩ := ih (k := k + 1) ⟨fun j hj => by
        by_cases he : j = k
        · rw [he, hd]; simp
        · exact h.clean j (by omega), h.stk⟩ hs
      exact ⟨by omega, h2⟩
    · cases hs; exact ⟨Nat.le_refl _, h⟩

theorem adirs_before {K : List PState} {fuel k k' : Nat} {v v' : Option Version} {ts tbl ts' tbl' : List TagDir} (h : Ahead f k K)
    (hs : adirs f fuel v ts tbl k = some (v', ts', tbl', k')) : k ≤ k' ∧ Ahead f k' K := by
  induction fuel generalizing k v ts tbl with
  | zero => cases hs
  | succ fuel ih =>
    unfold adirs at hs
    have step : ∀ {d : TokData}, f k = some d → d ≠ .streamEnd → Ahead f (k + 1) K := fun hd hne => ⟨fun j hj => by
        by_cases he : j = k
        · rw [he, hd]; simpa using hne
        · exact h.clean j (by omega), h.stk⟩
    split at hs
    · cases hs
    next hd =>
      split at hs
      · cases hs
      split at hs
      · cases hs
      obtain ⟨h1, h2⟩ := ih (step hd (by simp)) hs
      exact ⟨by omega, h2⟩
    next hd =>
      split at hs
      · cases hs
      obtain ⟨h1, h2⟩ := ih (step hd (by simp)) hs
      exact ⟨by omega, h2⟩
    · cases hs; exact ⟨Nat.le_refl _, h⟩

/-- The result of a call: paid, or the end. -/
def PaysOrEnds (f : Nat → Option TokData) (A : Int) (r : AOut) : Prop :=
  ∀ e c, r = some (e, c) → c.st.cost + stackCost c.stk + 1 + A ≤ 4 * c.pos ∧
    ((e ≠ .streamEnd ∧ PaidInv f c) ∨ (e = .streamEnd ∧ c.st = .done ∧ ∃ k, c.pos = k + 1 ∧ Ahead f k c.stk))

theorem Pays.orEnds {r : AOut} (h : Pays f A r) : PaysOrEnds f A r := fun e c hr =>
  ⟨(h e c hr).1, .inl ⟨(h e c hr).2.2, (h e c hr).2.1⟩⟩

theorem pays_explicit {fuel : Nat} (h : Ahead f c.pos c.stk) (hA : stackCost c.stk + A ≤ 4 * c.pos) :
    PaysOrEnds f A (aexplicit f fuel c) := by
  unfold aexplicit
  split
  · exact pays_none.orEnds
  next hd =>
    intro e c' hr
    cases hr
    exact ⟨by cost, .inr ⟨rfl, rfl, c.pos, rfl, h⟩⟩
  next hne hd =>
    split
    · exact pays_none.orEnds
    next k hdir =>
      obtain ⟨h1, h2⟩ := adirs_before h hdir
      split
      next hds =>
        intro e c' hr
        cases hr
        refine ⟨?_, .inl ⟨by simp, ⟨⟨fun j hj => ?_, fun q hq => ?_⟩, fun hf => by cases hf⟩⟩⟩
        · simp only [PState.cost, stackCost, List.map_cons, List.sum_cons] at hA ⊢
          omega
        · by_cases he : j = k
          · rw [he, hds]; simp
          · exact h2.clean j (Nat.lt_of_le_of_ne (Nat.le_of_lt_succ hj) he)
        · rcases List.mem_cons.mp hq with rfl | hq
          · rfl
          · exact h2.stk q hq
      · exact pays_none.orEnds

/-- One call. -/
theorem pays_step {fuel : Nat} (h : PaidInv f c) (hA : c.st.cost + stackCost c.stk + A ≤ 4 * c.pos) : PaysOrEnds f A (astep f fuel c) := by
  have hb := h.toAhead
  unfold astep
  have first : c.st.isFirst = true → ∀ {r : AOut}, (Ahead f c.next.pos c.next.stk → PaysOrEnds f A r) → PaysOrEnds f A (if f c.pos = none then none else r) := by
    intro hf r hr
    split
    · exact pays_none.orEnds
    next hne =>
      cases hd : f c.pos with
      | none => exact absurd hd hne
      | some d => exact hr (ahead_next hb hd (by rintro rfl; exact h.first hf hd))
  cases hst : c.st <;> rw [hst] at hA first <;> simp only
  · split
    next hd => exact (pays_to (ahead_next hb hd (by simp)) (by simp) (by intro hf; cases hf) (by cost)).orEnds
    · exact pays_none.orEnds
  · split
    · exact pays_none.orEnds
    next hd =>
      split
      · exact pays_explicit hb (by cost)
      split
      · exact pays_none.orEnds
      · intro e c' hr
        cases hr
        exact ⟨by cost, .inl ⟨by simp, ⟨before_push hb rfl, by intro hf; cases hf⟩⟩⟩
  · split
    · exact pays_none.orEnds
    next hs =>
      obtain ⟨h1, h2⟩ := askip_before hb hs
      exact pays_explicit (c := { c with pos := _ }) h2 (by cost)
  · split
    · exact pays_none.orEnds
    next hd =>
      split
      · exact (pays_pop hb (by simp [absent]) (by cost)).orEnds
      · exact (pays_node hb (by cost)).orEnds
  · exact (pays_docEnd hb (by cost)).orEnds
  · exact (pays_node hb (by cost)).orEnds
  · exact first rfl fun h1 => (pays_blockSeq h1 (by cost)).orEnds
  · exact (pays_blockSeq hb (by cost)).orEnds
  · exact (pays_indentless hb (by cost)).orEnds
  · exact first rfl fun h1 => (pays_blockKey h1 (by cost)).orEnds
  · exact (pays_blockKey hb (by cost)).orEnds
  · exact (pays_blockValue hb (by cost)).orEnds
  · exact first rfl fun h1 => (pays_flowItem h1 (by cost)).orEnds
  · exact (pays_flowSeq hb (by cost)).orEnds
  · exact (pays_pairKey hb (by cost)).orEnds
  · exact (pays_pairValue hb (by cost)).orEnds
  · exact (pays_pairEnd hb (by cost)).orEnds
  · exact first rfl fun h1 => (pays_flowPair h1 (by cost)).orEnds
  · exact (pays_flowMap hb (by cost)).orEnds
  · exact (pays_flowValue hb (by cost)).orEnds
  · exact (pays_flowEmpty hb (by cost)).orEnds
  · exact pays_none.orEnds

/-- A run: the number of events is at most four times the number of tokens passed, and of those only the last one can be STREAM-END. -/
theorem pays_runs {fuel : Nat} {evs : List EvData} {c' : AC} (h : PaidInv f c) (hr : Runs f fuel c evs c')
    (hA : c.st.cost + stackCost c.stk + A ≤ 4 * c.pos) :
    A + evs.length ≤ 4 * c'.pos ∧ ((.streamEnd ∉ evs ∧ PaidInv f c') ∨ (c'.st = .done ∧ ∃ k, c'.pos = k + 1 ∧ Ahead f k c'.stk)) := by
  induction evs generalizing c A with
  | nil =>
    have : c = c' := hr
    subst this
    exact ⟨by simp only [List.length_nil]; omega, .inl ⟨by simp, h⟩⟩
  | cons e evs ih =>
    obtain ⟨c1, h1, h2⟩ := hr
    obtain ⟨h3, h4⟩ := pays_step (fuel := fuel) h hA e c1 h1
    rcases h4 with ⟨he, h4⟩ | ⟨he, h4, k, h5, h6⟩
    · obtain ⟨h5, h6⟩ := ih (A := A + 1) h4 h2 (by omega)
      refine ⟨by simp only [List.length_cons]; omega, h6.imp (fun h => ⟨?_, h.2⟩) id⟩
      intro hm
      rcases List.mem_cons.mp hm with h' | h'
      · exact he h'.symm
      · exact h.1 h'
    · cases evs with
      | nil =>
        have : c1 = c' := h2
        subst this
        exact ⟨by simp only [List.length_cons, List.length_nil]; omega, .inr ⟨h4, k, h5, h6⟩⟩
      | cons e2 evs =>
        obtain ⟨c2, h7, _⟩ := h2
        simp only [astep, h4] at h7
        cases h7
end

end LibYaml
