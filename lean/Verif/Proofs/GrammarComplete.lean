import Verif.Proofs.PushDown

/-! Every derivation of the implemented grammar is a run of the push-down automaton. -/

namespace LibYaml

open Spec

section
variable (f : Nat → Option TokData)

/-- The tokens at positions `k` up to `k'` are `ts`. -/
def Seg : Nat → List TokData → Nat → Prop
  | k, [], k' => k = k'
  | k, t :: r, k' => f k = some t ∧ Seg (k + 1) r k'

/-- A run of the automaton delivering the events. -/
def Runs (fuel : Nat) : AC → List EvData → AC → Prop
  | c, [], c' => c = c'
  | c, e :: es, c' => ∃ c1, astep f fuel c = some (e, c1) ∧ Runs fuel c1 es c'

/-- A run whose first step has the given result. -/
def Thn (fuel : Nat) (r : AOut) (evs : List EvData) (c' : AC) : Prop :=
  ∃ e es c1, evs = e :: es ∧ r = some (e, c1) ∧ Runs f fuel c1 es c'

/-- `(VALUE node?)?`, common to three states. -/
def avalue (b i : Bool) (stop : List TokData) (q : PState) (c : AC) : AOut :=
  match f c.pos with
  | none => none
  | some .value => aopt f b i stop q c.next
  | some _ => c.to q absent

end

variable {f : Nat → Option TokData} {fuel : Nat}

theorem seg_append {a b : List TokData} {k k' : Nat} : Seg f k (a ++ b) k' ↔ ∃ m, Seg f k a m ∧ Seg f m b k' := by
  induction a generalizing k with
  | nil =>
    constructor
    · intro h; exact ⟨k, rfl, h⟩
    · rintro ⟨m, h1, h2⟩
      have : k = m := h1
      subst this; exact h2
  | cons t r ih =>
    constructor
    · rintro ⟨h1, h2⟩
      obtain ⟨m, h3, h4⟩ := ih.mp h2
      exact ⟨m, ⟨h1, h3⟩, h4⟩
    · rintro ⟨m, ⟨h1, h3⟩, h4⟩
      exact ⟨h1, ih.mpr ⟨m, h3, h4⟩⟩

theorem seg_one {t : TokData} {k k' : Nat} : Seg f k [t] k' ↔ f k = some t ∧ k' = k + 1 :=
  ⟨fun ⟨h1, h2⟩ => ⟨h1, (show k + 1 = k' from h2).symm⟩, fun ⟨h1, h2⟩ => ⟨h1, (show k + 1 = k' from h2.symm)⟩⟩

theorem seg_cons {t : TokData} {r : List TokData} {k k' : Nat} :
    Seg f k (t :: r) k' ↔ f k = some t ∧ Seg f (k + 1) r k' := Iff.rfl

theorem runs_append {a b : List EvData} {c1 c2 c3 : AC} (h1 : Runs f fuel c1 a c2) (h2 : Runs f fuel c2 b c3) :
    Runs f fuel c1 (a ++ b) c3 := by
  induction a generalizing c1 with
  | nil => have : c1 = c2 := h1; subst this; exact h2
  | cons e es ih =>
    obtain ⟨c, h, h'⟩ := h1
    exact ⟨c, h, ih h'⟩

theorem thn_append {r : AOut} {a b : List EvData} {c2 c3 : AC} (h1 : Thn f fuel r a c2) (h2 : Runs f fuel c2 b c3) :
    Thn f fuel r (a ++ b) c3 := by
  obtain ⟨e, es, c, h, h', h''⟩ := h1
  exact ⟨e, es ++ b, c, by rw [h]; rfl, h', runs_append h'' h2⟩

theorem runs_of_thn {c c' : AC} {evs : List EvData} (h : Thn f fuel (astep f fuel c) evs c') : Runs f fuel c evs c' := by
  obtain ⟨e, es, c1, h1, h2, h3⟩ := h
  subst h1
  exact ⟨c1, h2, h3⟩

theorem thn_one {e : EvData} {c : AC} : Thn f fuel (some (e, c)) [e] c := ⟨e, [], c, rfl, rfl, rfl⟩

theorem thn_cons {e : EvData} {es : List EvData} {c c' : AC} (h : Runs f fuel c es c') : Thn f fuel (some (e, c)) (e :: es) c' :=
  ⟨e, es, c, rfl, rfl, h⟩

/-- The tokens that may follow a node. Where an indentless sequence may stand these are fewer. -/
def follows (i : Bool) : TokData → Bool
  | .key | .value | .blockEnd => true
  | .blockEntry | .flowEntry | .flowSequenceEnd | .flowMappingEnd | .documentStart | .documentEnd | .streamEnd
  | .versionDirective _ | .tagDirective _ => !i
  | _ => false

/-- The tokens a node may begin with. -/
def begins (b i : Bool) : TokData → Bool
  | .alias _ | .anchor _ | .tag .. | .scalar .. | .flowSequenceStart | .flowMappingStart => true
  | .blockSequenceStart | .blockMappingStart => b
  | .blockEntry => i
  | _ => false

theorem props_begin {tags : List TagDir} {p : List TokData} {a t : Option Text} (h : Properties tags p a t) {d : TokData}
    {w : List TokData} (b i : Bool) (hd : begins b i d = true) : ∃ d' w', p ++ d :: w = d' :: w' ∧ begins b i d' = true := by
  cases h <;> first | exact ⟨_, _, rfl, hd⟩ | exact ⟨_, _, rfl, rfl⟩

theorem entries_head {v : Variant} {tags : List TagDir} {w : List TokData} {e : List EvData}
    (h : Gram v tags .blockEntries w e) : w = [] ∨ ∃ r, w = .blockEntry :: r := by
  cases h with
  | entriesNil => exact .inl rfl
  | entriesCons => exact .inr ⟨_, rfl⟩

theorem node_begins {v : Variant} {tags : List TagDir} {b i : Bool} {w : List TokData} {e : List EvData}
    (h : Gram v tags (.node b i) w e) : ∃ d r, w = d :: r ∧ begins b i d = true := by
  cases h with
  | alias a => exact ⟨_, _, rfl, rfl⟩
  | scalar x style hp => exact props_begin hp b i rfl
  | empty hp hne =>
    cases hp with
    | none => exact absurd rfl hne
    | _ => exact ⟨_, _, rfl, rfl⟩
  | flowSequence hp _ => rw [List.append_assoc]; exact props_begin hp b i rfl
  | flowMapping hp _ => rw [List.append_assoc]; exact props_begin hp b i rfl
  | blockSequence hp _ => rw [List.append_assoc]; exact props_begin hp true i rfl
  | blockMapping hp _ => rw [List.append_assoc]; exact props_begin hp true i rfl
  | indentless hp he hne =>
    rcases entries_head he with h | ⟨r, h⟩
    · exact absurd h hne
    · subst h; exact props_begin hp b true rfl

theorem atag_table {tags : List TagDir} {h s t : Text} (he : expand tags h s = some t) :
    atag (table tags) (some (h, s)) = some (some t) := by
  unfold expand at he
  simp only [atag]
  by_cases h0 : h = []
  · rw [if_pos h0] at he ⊢; cases he; rfl
  · rw [if_neg h0] at he ⊢
    rw [find_table]
    cases hf : (tags ++ predeclared).find? (fun d => d.handle == h) with
    | none => rw [hf] at he; cases he
    | some d => rw [hf] at he; cases he; rfl

/-- Tokens that are neither alias nor property. -/
def afterProps : TokData → Bool
  | .alias _ | .anchor _ | .tag .. => false
  | _ => true

theorem anode_eq {tags : List TagDir} {b i : Bool} {p : List TokData} {a t : Option Text} {c : AC} {m : Nat} {d : TokData}
    (hp : Properties tags p a t) (hs : Seg f c.pos p m) (hd : f m = some d) (ha : afterProps d = true)
    (ht : c.tags = table tags) : anode f b i c = acontent f b i a t { c with pos := m } := by
  unfold anode
  cases hp with
  | none =>
    have hm : c.pos = m := hs
    rw [hm, hd]
    simp only [aprops, hd]
    cases d <;> simp only [afterProps, Bool.false_eq_true] at ha <;> simp only [atag]
  | anchor a =>
    obtain ⟨h1, h2⟩ := hs
    have hm : c.pos + 1 = m := h2
    rw [h1]
    simp only [aprops, h1, hm, hd]
    cases d <;> simp only [afterProps, Bool.false_eq_true] at ha <;> simp only [atag]
  | tag he =>
    obtain ⟨h1, h2⟩ := hs
    have hm : c.pos + 1 = m := h2
    rw [h1]
    simp only [aprops, h1, hm, hd]
    cases d <;> simp only [afterProps, Bool.false_eq_true] at ha <;> simp only [ht, atag_table he]
  | anchorTag he =>
    obtain ⟨h1, h2, h3⟩ := hs
    have hm : c.pos + 2 = m := h3
    rw [h1]
    simp only [aprops, h1, h2, hm, hd]
    simp only [reduceCtorEq, if_false, ht, atag_table he]
  | tagAnchor he =>
    obtain ⟨h1, h2, h3⟩ := hs
    have hm : c.pos + 2 = m := h3
    rw [h1]
    simp only [aprops, h1, h2, hm, hd]
    simp only [reduceCtorEq, if_false, ht, atag_table he]

/-- What a derivation means for the automaton. -/
def Complete (f : Nat → Option TokData) (fuel : Nat) (tags : List TagDir) : Nt → List TokData → List EvData → Prop
  | .node b i, ts, ev => ∀ (c : AC) q K k' d, c.stk = q :: K → c.tags = table tags → Seg f c.pos ts k' → f k' = some d →
      follows i d = true → Thn f fuel (anode f b i c) ev { c with st := q, stk := K, pos := k' }
  | .opt b i, ts, ev => ∀ (c : AC) stop q k' d, c.tags = table tags → Seg f c.pos ts k' → f k' = some d → d ∈ stop →
      follows i d = true → (∀ d ∈ stop, begins b i d = false) → Thn f fuel (aopt f b i stop q c) ev { c with st := q, pos := k' }
  | .value b i, ts, ev => ∀ (c : AC) stop q k' d, c.tags = table tags → Seg f c.pos ts k' → f k' = some d → d ∈ stop →
      follows i d = true → d ≠ .value → (∀ d ∈ stop, begins b i d = false) →
      Thn f fuel (avalue f b i stop q c) ev { c with st := q, pos := k' }
  | .blockEntries, ts, ev =>
      (∀ (c : AC) k', c.tags = table tags → c.st = .blockSequenceEntry → Seg f c.pos ts k' → f k' = some .blockEnd →
        Runs f fuel c ev { c with pos := k' }) ∧
      (∀ (c : AC) k' d, c.tags = table tags → c.st = .indentlessSequenceEntry → Seg f c.pos ts k' → f k' = some d →
        follows true d = true → Runs f fuel c ev { c with pos := k' })
  | .blockPairs, ts, ev => ∀ (c : AC) k', c.tags = table tags → c.st = .blockMappingKey → Seg f c.pos ts k' →
      f k' = some .blockEnd → Runs f fuel c ev { c with pos := k' }
  | .flowItems, ts, ev => ∀ (c : AC) q K k', c.tags = table tags → c.stk = q :: K →
      Seg f c.pos (ts ++ [.flowSequenceEnd]) k' →
      Thn f fuel (aflowItem f c) (ev ++ [.sequenceEnd]) { c with st := q, stk := K, pos := k' }
  | .flowItem, ts, ev => ∀ (c : AC) k' d, c.tags = table tags → Seg f c.pos ts k' → f k' = some d →
      d = .flowEntry ∨ d = .flowSequenceEnd → Thn f fuel (aflowItem f c) ev { c with st := .flowSequenceEntry, pos := k' }
  | .flowPairs, ts, ev => ∀ (c : AC) q K k', c.tags = table tags → c.stk = q :: K →
      Seg f c.pos (ts ++ [.flowMappingEnd]) k' →
      Thn f fuel (aflowPair f c) (ev ++ [.mappingEnd]) { c with st := q, stk := K, pos := k' }
  | .flowPair, ts, ev => ∀ (c : AC) k' d, c.tags = table tags → Seg f c.pos ts k' → f k' = some d →
      d = .flowEntry ∨ d = .flowMappingEnd → Thn f fuel (aflowPair f c) ev { c with st := .flowMappingKey, pos := k' }

theorem follows_content {b i : Bool} {d : TokData} {a t : Option Text} {c : AC} (h : follows i d = true) (hd : f c.pos = some d)
    (hs : (a.isSome || t.isSome) = true) : acontent f b i a t c = c.pop (.scalar a t [] (untagged t) false .plain) := by
  unfold acontent
  rw [hd]
  cases d <;> simp only [follows, Bool.not_eq_true', Bool.false_eq_true] at h <;> subst_vars <;> simp [hs]

theorem follows_after {i : Bool} {d : TokData} (h : follows i d = true) : afterProps d = true := by
  cases d <;> simp [follows, afterProps] at h ⊢

theorem props_some {tags : List TagDir} {p : List TokData} {a t : Option Text} (hp : Properties tags p a t) (hne : p ≠ []) :
    (a.isSome || t.isSome) = true := by
  cases hp with
  | none => exact absurd rfl hne
  | _ => rfl

theorem aopt_node {b i : Bool} {stop : List TokData} {q : PState} {c : AC} {d : TokData} (hd : f c.pos = some d)
    (hb : begins b i d = true) (hstop : ∀ d ∈ stop, begins b i d = false) :
    aopt f b i stop q c = anode f b i (c.push q) := by
  unfold aopt
  rw [hd]
  simp only
  rw [if_neg]
  intro hm
  have := hstop d hm
  rw [hb] at this; cases this

theorem thn_of_runs {c c' : AC} {evs : List EvData} (h : Runs f fuel c evs c') (hne : evs ≠ []) :
    Thn f fuel (astep f fuel c) evs c' := by
  cases evs with
  | nil => exact absurd rfl hne
  | cons e es => obtain ⟨c1, h1, h2⟩ := h; exact ⟨e, es, c1, rfl, h1, h2⟩

theorem begins_block : ∀ d ∈ [TokData.key, .value, .blockEnd], begins true true d = false := by decide
theorem begins_seq : ∀ d ∈ [TokData.blockEntry, .blockEnd], begins true false d = false := by decide
theorem begins_indentless : ∀ d ∈ [TokData.blockEntry, .key, .value, .blockEnd], begins true false d = false := by decide
theorem begins_pair : ∀ d ∈ [TokData.flowEntry, .flowSequenceEnd], begins false false d = false := by decide
theorem begins_flowKey : ∀ d ∈ [TokData.value, .flowEntry, .flowMappingEnd], begins false false d = false := by decide
theorem begins_flowValue : ∀ d ∈ [TokData.flowEntry, .flowMappingEnd], begins false false d = false := by decide

theorem complete {v : Variant} (hv : v ≠ .documented) {tags : List TagDir} {nt : Nt} {ts : List TokData} {ev : List EvData}
    (h : Gram v tags nt ts ev) : Complete f fuel tags nt ts ev := by
  induction h with
  | alias a =>
    intro c q K k' d hq ht hs hd hf
    obtain ⟨h1, h2⟩ := seg_one.mp hs
    simp only [anode, h1, AC.pop, AC.next, hq, h2]
    exact thn_one
  | scalar x style hp =>
    intro c q K k' d hq ht hs hd hf
    obtain ⟨m, h1, h2⟩ := seg_append.mp hs
    obtain ⟨h2, h3⟩ := seg_one.mp h2
    rw [anode_eq hp h1 h2 rfl ht]
    simp only [acontent, h2, AC.pop, AC.next, hq, h3]
    rw [if_neg (by simp)]
    exact thn_one
  | empty hp hne =>
    intro c q K k' d hq ht hs hd hf
    rw [anode_eq hp hs hd (follows_after hf) ht, follows_content hf (by exact hd) (props_some hp hne)]
    simp only [AC.pop, hq]
    exact thn_one
  | flowSequence hp _ ih =>
    intro c q K k' d hq ht hs hd hf
    rw [List.append_assoc] at hs
    obtain ⟨m, h1, h2, h3⟩ := seg_append.mp hs
    rw [anode_eq hp h1 h2 rfl ht]
    simp only [acontent, h2, AC.to]
    rw [if_neg (by simp)]
    refine thn_cons (runs_of_thn ?_)
    simp only [astep, h2]
    rw [if_neg (by simp)]
    exact ih (AC.next { c with st := .flowSequenceFirstEntry, pos := m }) q K k' ht hq h3
  | flowMapping hp _ ih =>
    intro c q K k' d hq ht hs hd hf
    rw [List.append_assoc] at hs
    obtain ⟨m, h1, h2, h3⟩ := seg_append.mp hs
    rw [anode_eq hp h1 h2 rfl ht]
    simp only [acontent, h2, AC.to]
    rw [if_neg (by simp)]
    refine thn_cons (runs_of_thn ?_)
    simp only [astep, h2]
    rw [if_neg (by simp)]
    exact ih (AC.next { c with st := .flowMappingFirstKey, pos := m }) q K k' ht hq h3
  | blockSequence hp _ ih =>
    intro c q K k' d hq ht hs hd hf
    rw [List.append_assoc] at hs
    obtain ⟨m, h1, h2, h3⟩ := seg_append.mp hs
    obtain ⟨m', h3, h4⟩ := seg_append.mp h3
    obtain ⟨h4, h5⟩ := seg_one.mp h4
    rw [anode_eq hp h1 h2 rfl ht]
    simp only [acontent, h2, AC.to]
    rw [if_neg (by simp), if_pos (by simp)]
    refine thn_cons (runs_of_thn ?_)
    have r1 := ih.1 { c with st := .blockSequenceEntry, pos := m + 1 } m' ht rfl h3 h4
    have r2 : Runs f fuel { c with st := .blockSequenceEntry, pos := m' } [.sequenceEnd] { c with st := q, stk := K, pos := k' } := by
      apply runs_of_thn
      simp only [astep, ablockSeq, h4, AC.pop, AC.next, hq, h5]
      exact thn_one
    have r3 := thn_of_runs (runs_append r1 r2) (by simp)
    have e : astep f fuel { c with st := .blockSequenceFirstEntry, pos := m } =
        astep f fuel { c with st := .blockSequenceEntry, pos := m + 1 } := by
      simp only [astep, h2]
      rw [if_neg (by simp)]
      rfl
    rw [e]; exact r3
  | blockMapping hp _ ih =>
    intro c q K k' d hq ht hs hd hf
    rw [List.append_assoc] at hs
    obtain ⟨m, h1, h2, h3⟩ := seg_append.mp hs
    obtain ⟨m', h3, h4⟩ := seg_append.mp h3
    obtain ⟨h4, h5⟩ := seg_one.mp h4
    rw [anode_eq hp h1 h2 rfl ht]
    simp only [acontent, h2, AC.to]
    rw [if_neg (by simp), if_neg (by simp), if_pos (by simp)]
    refine thn_cons (runs_of_thn ?_)
    have r1 := ih { c with st := .blockMappingKey, pos := m + 1 } m' ht rfl h3 h4
    have r2 : Runs f fuel { c with st := .blockMappingKey, pos := m' } [.mappingEnd] { c with st := q, stk := K, pos := k' } := by
      apply runs_of_thn
      simp only [astep, ablockKey, h4, AC.pop, AC.next, hq, h5]
      exact thn_one
    have r3 := thn_of_runs (runs_append r1 r2) (by simp)
    have e : astep f fuel { c with st := .blockMappingFirstKey, pos := m } =
        astep f fuel { c with st := .blockMappingKey, pos := m + 1 } := by
      simp only [astep, h2]
      rw [if_neg (by simp)]
      rfl
    rw [e]; exact r3
  | indentless hp he hne ih =>
    intro c q K k' d hq ht hs hd hf
    obtain ⟨m, h1, h2⟩ := seg_append.mp hs
    have hb : f m = some .blockEntry := by
      rcases entries_head he with h | ⟨r, h⟩
      · exact absurd h hne
      · rw [h] at h2; exact h2.1
    rw [anode_eq hp h1 hb rfl ht]
    simp only [acontent, hb, AC.to]
    rw [if_pos (by simp)]
    refine thn_cons (runs_append (ih.2 { c with st := .indentlessSequenceEntry, pos := m } k' d ht rfl h2 hd hf) (runs_of_thn ?_))
    simp only [astep, aindentless, hd, AC.pop, hq]
    cases d <;> simp only [follows, Bool.not_true, Bool.false_eq_true] at hf <;> exact thn_one
  | missing =>
    intro c stop q k' d ht hs hd hm hf hstop
    have hk : c.pos = k' := hs
    subst hk
    simp only [aopt, hd, if_pos hm, AC.to]
    exact thn_one
  | present hn ih =>
    intro c stop q k' d ht hs hd hm hf hstop
    obtain ⟨d0, r, h0, h1⟩ := node_begins hn
    rw [aopt_node (by rw [h0] at hs; exact hs.1) h1 hstop]
    exact ih (c.push q) q c.stk k' d rfl ht hs hd hf
  | noValue =>
    intro c stop q k' d ht hs hd hm hf hne hstop
    have hk : c.pos = k' := hs
    subst hk
    simp only [avalue, hd, AC.to]
    exact thn_one
  | value hn ih =>
    intro c stop q k' d ht hs hd hm hf hne hstop
    obtain ⟨h1, h2⟩ := hs
    simp only [avalue, h1]
    exact ih c.next stop q k' d ht h2 hd hm hf hstop
  | entriesNil =>
    exact ⟨fun c k' ht hst hs hd => by have : c.pos = k' := hs; subst this; rfl,
      fun c k' d ht hst hs hd hf => by have : c.pos = k' := hs; subst this; rfl⟩
  | @entriesCons w e w' e' hn hr ih1 ih2 =>
    refine ⟨fun c k' ht hst hs hd => ?_, fun c k' d ht hst hs hd hf => ?_⟩
    · obtain ⟨h0, hs⟩ := hs
      obtain ⟨m, h1, h2⟩ := seg_append.mp hs
      have hnext : f m = some .blockEntry ∨ f m = some .blockEnd := by
        rcases entries_head hr with h | ⟨r, h⟩
        · subst h
          have : m = k' := h2
          subst this; exact .inr hd
        · subst h; exact .inl h2.1
      have r1 : Thn f fuel (astep f fuel c) e { c with st := .blockSequenceEntry, pos := m } := by
        have eq : astep f fuel c = aopt f true false [.blockEntry, .blockEnd] .blockSequenceEntry c.next := by
          simp only [astep, hst, ablockSeq, h0]
        rw [eq]
        rcases hnext with h | h
        · exact ih1 c.next _ _ m _ ht h1 h (by simp) rfl begins_seq
        · exact ih1 c.next _ _ m _ ht h1 h (by simp) rfl begins_seq
      refine runs_append (runs_of_thn r1) ?_
      have := ih2.1 { c with st := .blockSequenceEntry, pos := m } k' ht rfl h2 hd
      rw [← hst] at this ⊢
      exact this
    · obtain ⟨h0, hs⟩ := hs
      obtain ⟨m, h1, h2⟩ := seg_append.mp hs
      have hnext : ∃ d', f m = some d' ∧ (d' = .blockEntry ∨ d' = .key ∨ d' = .value ∨ d' = .blockEnd) := by
        rcases entries_head hr with h | ⟨r, h⟩
        · subst h
          have : m = k' := h2
          subst this
          refine ⟨d, hd, ?_⟩
          cases d <;> simp [follows] at hf ⊢
        · subst h; exact ⟨_, h2.1, .inl rfl⟩
      have r1 : Thn f fuel (astep f fuel c) e { c with st := .indentlessSequenceEntry, pos := m } := by
        have eq : astep f fuel c = aopt f true false [.blockEntry, .key, .value, .blockEnd] .indentlessSequenceEntry c.next := by
          simp only [astep, hst, aindentless, h0]
        rw [eq]
        obtain ⟨d', h, hh⟩ := hnext
        refine ih1 c.next _ _ m d' ht h1 h ?_ ?_ begins_indentless
        · rcases hh with hh | hh | hh | hh <;> simp [hh]
        · rcases hh with hh | hh | hh | hh <;> rw [hh] <;> rfl
      refine runs_append (runs_of_thn r1) ?_
      have := ih2.2 { c with st := .indentlessSequenceEntry, pos := m } k' d ht rfl h2 hd hf
      rw [← hst] at this ⊢
      exact this
  | pairsNil =>
    intro c k' ht hst hs hd
    have : c.pos = k' := hs
    subst this; rfl
  | @pairsCons k ek x ex w e hk hx hw ih1 ih2 ih3 =>
    intro c k' ht hst hs hd
    rw [List.append_assoc] at hs
    obtain ⟨h0, hs⟩ := hs
    obtain ⟨m1, h1, hs⟩ := seg_append.mp hs
    obtain ⟨m2, h2, h3⟩ := seg_append.mp hs
    have hnext2 : f m2 = some .key ∨ f m2 = some .blockEnd := by
      cases hw with
      | pairsNil => have : m2 = k' := h3; subst this; exact .inr hd
      | pairsCons => rw [List.append_assoc] at h3; exact .inl h3.1
      | pairsValue hc => exact absurd hc hv
    have hnext1 : ∃ d, f m1 = some d ∧ (d = .value ∨ d = .key ∨ d = .blockEnd) := by
      cases hx with
      | noValue =>
        have : m1 = m2 := h2
        subst this
        rcases hnext2 with h | h
        · exact ⟨_, h, .inr (.inl rfl)⟩
        · exact ⟨_, h, .inr (.inr rfl)⟩
      | value => exact ⟨_, h2.1, .inl rfl⟩
    have r1 : Runs f fuel c ek { c with st := .blockMappingValue, pos := m1 } := by
      apply runs_of_thn
      have e : astep f fuel c = aopt f true true [.key, .value, .blockEnd] .blockMappingValue c.next := by
        simp only [astep, hst, ablockKey, h0]
      rw [e]
      obtain ⟨d, h, hh⟩ := hnext1
      refine ih1 c.next _ _ m1 d ht h1 h ?_ ?_ begins_block
      · rcases hh with hh | hh | hh <;> simp [hh]
      · rcases hh with hh | hh | hh <;> rw [hh] <;> rfl
    have r2 : Runs f fuel { c with st := .blockMappingValue, pos := m1 } ex { c with st := .blockMappingKey, pos := m2 } := by
      apply runs_of_thn
      have e : astep f fuel { c with st := .blockMappingValue, pos := m1 } =
          avalue f true true [.key, .value, .blockEnd] .blockMappingKey { c with st := .blockMappingValue, pos := m1 } := rfl
      rw [e]
      rcases hnext2 with h | h
      · exact ih2 { c with st := .blockMappingValue, pos := m1 } _ _ m2 _ ht h2 h (by simp) rfl (by simp) begins_block
      · exact ih2 { c with st := .blockMappingValue, pos := m1 } _ _ m2 _ ht h2 h (by simp) rfl (by simp) begins_block
    have r3 := ih3 { c with st := .blockMappingKey, pos := m2 } k' ht rfl h3 hd
    have := runs_append (runs_append r1 r2) r3
    rw [← hst] at this
    exact this
  | pairsValue hc => exact absurd hc hv
  | itemsNil =>
    intro c q K k' ht hq hs
    obtain ⟨h1, h2⟩ := seg_one.mp hs
    simp only [aflowItem, h1, AC.pop, AC.next, hq, h2]
    exact thn_one
  | itemsOne _ ih =>
    intro c q K k' ht hq hs
    obtain ⟨m, h1, h2⟩ := seg_append.mp hs
    obtain ⟨h2, h3⟩ := seg_one.mp h2
    refine thn_append (ih c m _ ht h1 h2 (.inr rfl)) (runs_of_thn ?_)
    simp only [astep, aflowSeq, h2, AC.pop, AC.next, hq, h3]
    exact thn_one
  | itemsCons _ _ ih1 ih2 =>
    intro c q K k' ht hq hs
    rw [List.append_assoc] at hs
    obtain ⟨m, h1, h2, h3⟩ := seg_append.mp hs
    rw [List.append_assoc]
    refine thn_append (ih1 c m _ ht h1 h2 (.inl rfl)) (runs_of_thn ?_)
    have e : astep f fuel { c with st := .flowSequenceEntry, pos := m } =
        aflowItem f { c with st := .flowSequenceEntry, pos := m + 1 } := by
      simp only [astep, aflowSeq, h2, AC.next]
    rw [e]
    exact ih2 { c with st := .flowSequenceEntry, pos := m + 1 } q K k' ht hq h3
  | itemsEmptyKey hc =>
    intro c q K k' ht hq hs
    obtain ⟨h1, h2⟩ := hs
    obtain ⟨h2, h3⟩ := seg_one.mp h2
    simp only [aflowItem, h1, AC.to, AC.next]
    refine thn_cons ⟨{ c with st := .flowSequenceEntryMappingValue, pos := c.pos + 1 }, ?_,
      { c with st := .flowSequenceEntryMappingEnd, pos := c.pos + 1 }, ?_,
      { c with st := .flowSequenceEntry, pos := c.pos + 1 }, ?_, { c with st := q, stk := K, pos := k' }, ?_, rfl⟩
    · simp only [astep, apairKey, h2, AC.to]
    · simp only [astep, apairValue, h2, AC.to]
    · simp only [astep, apairEnd, h2, AC.to]
    · simp only [astep, aflowSeq, h2, AC.pop, AC.next, hq, h3]
  | item hn ih =>
    intro c k' d ht hs hd hf
    obtain ⟨d0, r, h0, h1⟩ := node_begins hn
    have hd0 : f c.pos = some d0 := by rw [h0] at hs; exact hs.1
    have e : aflowItem f c = anode f false false (c.push .flowSequenceEntry) := by
      simp only [aflowItem, hd0]
      cases d0 <;> simp [begins] at h1 <;> rfl
    rw [e]
    refine ih (c.push .flowSequenceEntry) .flowSequenceEntry c.stk k' d rfl ht hs hd ?_
    rcases hf with h | h <;> rw [h] <;> rfl
  | @itemPair k ek x ex hk hx ih1 ih2 =>
    intro c k' d ht hs hd hf
    obtain ⟨h0, hs⟩ := hs
    obtain ⟨m, h1, h2⟩ := seg_append.mp hs
    have e1 : aflowItem f c = some (.mappingStart none none true .flow,
        { c with st := .flowSequenceEntryMappingKey, pos := c.pos + 1 }) := by
      simp only [aflowItem, h0, AC.to, AC.next]
    rw [e1]
    refine thn_cons ?_
    obtain ⟨d0, r, hr, hb⟩ := node_begins hk
    have hd0 : f (c.pos + 1) = some d0 := by rw [hr] at h1; exact h1.1
    have hnext : ∃ d', f m = some d' ∧ follows false d' = true := by
      cases hx with
      | noValue =>
        have : m = k' := h2
        subst this
        refine ⟨d, hd, ?_⟩
        rcases hf with h | h <;> rw [h] <;> rfl
      | value => exact ⟨_, h2.1, rfl⟩
    have r1 : Runs f fuel { c with st := .flowSequenceEntryMappingKey, pos := c.pos + 1 } ek
        { c with st := .flowSequenceEntryMappingValue, pos := m } := by
      apply runs_of_thn
      have e : astep f fuel { c with st := .flowSequenceEntryMappingKey, pos := c.pos + 1 } =
          anode f false false (AC.push { c with st := .flowSequenceEntryMappingKey, pos := c.pos + 1 } .flowSequenceEntryMappingValue) := by
        simp only [astep, apairKey, hd0]
        cases d0 <;> simp [begins] at hb <;> rfl
      rw [e]
      obtain ⟨d', h, hh⟩ := hnext
      exact ih1 (AC.push { c with st := .flowSequenceEntryMappingKey, pos := c.pos + 1 } .flowSequenceEntryMappingValue)
        .flowSequenceEntryMappingValue c.stk m d' rfl ht h1 h hh
    have r2 : Runs f fuel { c with st := .flowSequenceEntryMappingValue, pos := m } ex
        { c with st := .flowSequenceEntryMappingEnd, pos := k' } := by
      apply runs_of_thn
      have e : astep f fuel { c with st := .flowSequenceEntryMappingValue, pos := m } =
          avalue f false false [.flowEntry, .flowSequenceEnd] .flowSequenceEntryMappingEnd
            { c with st := .flowSequenceEntryMappingValue, pos := m } := rfl
      rw [e]
      refine ih2 { c with st := .flowSequenceEntryMappingValue, pos := m } _ _ k' d ht h2 hd ?_ ?_ ?_ begins_pair
      · rcases hf with h | h <;> simp [h]
      · rcases hf with h | h <;> rw [h] <;> rfl
      · rcases hf with h | h <;> rw [h] <;> simp
    have r3 : Runs f fuel { c with st := .flowSequenceEntryMappingEnd, pos := k' } [.mappingEnd]
        { c with st := .flowSequenceEntry, pos := k' } := by
      apply runs_of_thn
      simp only [astep, apairEnd, hd, AC.to]
      exact thn_one
    exact runs_append (runs_append r1 r2) r3
  | itemPairNoKey hc => exact absurd hc hv
  | @itemPairLost d0 x ex hc hd0 hx ih2 =>
    intro c k' d ht hs hd hf
    obtain ⟨h0, h1, h2⟩ := hs
    have e1 : aflowItem f c = some (.mappingStart none none true .flow,
        { c with st := .flowSequenceEntryMappingKey, pos := c.pos + 1 }) := by
      simp only [aflowItem, h0, AC.to, AC.next]
    rw [e1]
    refine thn_cons ?_
    have r1 : Runs f fuel { c with st := .flowSequenceEntryMappingKey, pos := c.pos + 1 } [absent]
        { c with st := .flowSequenceEntryMappingValue, pos := c.pos + 2 } := by
      apply runs_of_thn
      have e : astep f fuel { c with st := .flowSequenceEntryMappingKey, pos := c.pos + 1 } =
          some (absent, { c with st := .flowSequenceEntryMappingValue, pos := c.pos + 2 }) := by
        simp only [astep, apairKey, h1]
        rcases hd0 with h | h <;> subst h <;> rfl
      rw [e]; exact thn_one
    have r2 : Runs f fuel { c with st := .flowSequenceEntryMappingValue, pos := c.pos + 2 } ex
        { c with st := .flowSequenceEntryMappingEnd, pos := k' } := by
      apply runs_of_thn
      have e : astep f fuel { c with st := .flowSequenceEntryMappingValue, pos := c.pos + 2 } =
          avalue f false false [.flowEntry, .flowSequenceEnd] .flowSequenceEntryMappingEnd
            { c with st := .flowSequenceEntryMappingValue, pos := c.pos + 2 } := rfl
      rw [e]
      refine ih2 { c with st := .flowSequenceEntryMappingValue, pos := c.pos + 2 } _ _ k' d ht h2 hd ?_ ?_ ?_ begins_pair
      · rcases hf with h | h <;> simp [h]
      · rcases hf with h | h <;> rw [h] <;> rfl
      · rcases hf with h | h <;> rw [h] <;> simp
    have r3 : Runs f fuel { c with st := .flowSequenceEntryMappingEnd, pos := k' } [.mappingEnd]
        { c with st := .flowSequenceEntry, pos := k' } := by
      apply runs_of_thn
      simp only [astep, apairEnd, hd, AC.to]
      exact thn_one
    exact runs_append (runs_append r1 r2) r3
  | fpairsNil =>
    intro c q K k' ht hq hs
    obtain ⟨h1, h2⟩ := seg_one.mp hs
    simp only [aflowPair, h1, AC.pop, AC.next, hq, h2]
    exact thn_one
  | fpairsOne _ ih =>
    intro c q K k' ht hq hs
    obtain ⟨m, h1, h2⟩ := seg_append.mp hs
    obtain ⟨h2, h3⟩ := seg_one.mp h2
    refine thn_append (ih c m _ ht h1 h2 (.inr rfl)) (runs_of_thn ?_)
    simp only [astep, aflowMap, h2, AC.pop, AC.next, hq, h3]
    exact thn_one
  | fpairsCons _ _ ih1 ih2 =>
    intro c q K k' ht hq hs
    rw [List.append_assoc] at hs
    obtain ⟨m, h1, h2, h3⟩ := seg_append.mp hs
    rw [List.append_assoc]
    refine thn_append (ih1 c m _ ht h1 h2 (.inl rfl)) (runs_of_thn ?_)
    have e : astep f fuel { c with st := .flowMappingKey, pos := m } =
        aflowPair f { c with st := .flowMappingKey, pos := m + 1 } := by
      simp only [astep, aflowMap, h2, AC.next]
    rw [e]
    exact ih2 { c with st := .flowMappingKey, pos := m + 1 } q K k' ht hq h3
  | pairKey hn ih =>
    intro c k' d ht hs hd hf
    obtain ⟨d0, r, h0, h1⟩ := node_begins hn
    have hd0 : f c.pos = some d0 := by rw [h0] at hs; exact hs.1
    have e : aflowPair f c = anode f false false (c.push .flowMappingEmptyValue) := by
      simp only [aflowPair, hd0]
      cases d0 <;> simp [begins] at h1 <;> rfl
    rw [e]
    have r1 := ih (c.push .flowMappingEmptyValue) .flowMappingEmptyValue c.stk k' d rfl ht hs hd
      (by rcases hf with h | h <;> rw [h] <;> rfl)
    refine thn_append r1 (runs_of_thn ?_)
    simp only [astep, aflowEmpty, hd, AC.to, AC.push]
    exact thn_one
  | @pair k ek x ex hk hx ih1 ih2 =>
    intro c k' d ht hs hd hf
    obtain ⟨h0, hs⟩ := hs
    obtain ⟨m, h1, h2⟩ := seg_append.mp hs
    have hnext : ∃ d', f m = some d' ∧ (d' = .value ∨ d' = .flowEntry ∨ d' = .flowMappingEnd) := by
      cases hx with
      | noValue =>
        have : m = k' := h2
        subst this
        exact ⟨d, hd, .inr hf⟩
      | value => exact ⟨_, h2.1, .inl rfl⟩
    have e1 : aflowPair f c = aopt f false false [.value, .flowEntry, .flowMappingEnd] .flowMappingValue c.next := by
      simp only [aflowPair, h0]
    rw [e1]
    have r1 : Thn f fuel (aopt f false false [.value, .flowEntry, .flowMappingEnd] .flowMappingValue c.next) ek
        { c with st := .flowMappingValue, pos := m } := by
      obtain ⟨d', h, hh⟩ := hnext
      refine ih1 c.next _ _ m d' ht h1 h ?_ ?_ begins_flowKey
      · rcases hh with hh | hh | hh <;> simp [hh]
      · rcases hh with hh | hh | hh <;> rw [hh] <;> rfl
    refine thn_append r1 (runs_of_thn ?_)
    have e : astep f fuel { c with st := .flowMappingValue, pos := m } =
        avalue f false false [.flowEntry, .flowMappingEnd] .flowMappingKey { c with st := .flowMappingValue, pos := m } := rfl
    rw [e]
    refine ih2 { c with st := .flowMappingValue, pos := m } _ _ k' d ht h2 hd ?_ ?_ ?_ begins_flowValue
    · rcases hf with h | h <;> simp [h]
    · rcases hf with h | h <;> rw [h] <;> rfl
    · rcases hf with h | h <;> rw [h] <;> simp

end LibYaml
