import Verif.Spec.Positions
import Verif.Proofs.ParserTags

/-! The events of the parser lie where `Spec/Positions.lean` says. -/

namespace LibYaml

open Spec

variable {σ : Type}

/-- With `a` available and the source at `x` at the beginning, the tokens `T` have been taken. -/
def Took (S : TokSrc σ) (a : Option Token) (x : σ) (T : List Token) (s : PS σ) : Prop :=
  ∃ ts, Feeds S x ts s.src ∧ a.toList ++ ts = T ++ s.avail.toList

theorem took_start {S : TokSrc σ} (s : PS σ) : Took S s.avail s.src [] s := ⟨[], .nil _, by simp⟩

theorem Took.irrel {S : TokSrc σ} {a : Option Token} {x : σ} {T : List Token} {s s' : PS σ} (h : Took S a x T s)
    (h1 : s'.avail = s.avail) (h2 : s'.src = s.src) : Took S a x T s' := by
  unfold Took at *; rw [h1, h2]; exact h

/-- The collections that a state stands in. -/
def PState.colls : PState → List Coll
  | .blockSequenceFirstEntry | .blockSequenceEntry | .indentlessSequenceEntry => [(false, .block)]
  | .blockMappingFirstKey | .blockMappingKey | .blockMappingValue => [(true, .block)]
  | .flowSequenceFirstEntry | .flowSequenceEntry => [(false, .flow)]
  | .flowSequenceEntryMappingKey | .flowSequenceEntryMappingValue | .flowSequenceEntryMappingEnd => [(true, .flow), (false, .flow)]
  | .flowMappingFirstKey | .flowMappingKey | .flowMappingValue | .flowMappingEmptyValue => [(true, .flow)]
  | _ => []

/-- The states in which nothing special has just happened. -/
def PState.quiet (p : PState) : Bool := !p.isFirst && p != .flowSequenceEntryMappingKey && p != .done

/-- What the state of the parser has to do with the stage. -/
def StageOk (s : PS σ) : Stage → Prop
  | .plain => s.state.quiet = true
  | .opening => (s.state.isFirst = true ∧ ∃ t, s.avail = some t ∧ opensColl t.data = true) ∨
      (s.state = .indentlessSequenceEntry ∧ ∃ t, s.avail = some t ∧ t.data = .blockEntry)
  | .pair => s.state = .flowSequenceEntryMappingKey
  | .over => s.state = .done ∧ s.avail = none

/-- All open collections. -/
def stackColls (K : List PState) : List Coll := K.flatMap PState.colls

/-- Between two calls. -/
structure PosInv (c : List Coll) (st : Stage) (s : PS σ) : Prop where
  colls : c = s.state.colls ++ stackColls s.states
  quiet : ∀ p ∈ s.states, p.quiet = true
  stage : StageOk s st

/-- The token that opens a collection is taken first. -/
def OpensFirst (st : Stage) (T : List Token) : Prop :=
  st = .opening → ∃ t T', T = t :: T' ∧ (opensColl t.data = true ∨ t.data = .blockEntry)

/-- What one call leaves. -/
def PosPost (S : TokSrc σ) (a : Option Token) (x : σ) (c : List Coll) (st : Stage) (e : Event) (s : PS σ) : Prop :=
  ∃ T st', Took S a x T s ∧ Placed c st T s.avail e st' ∧ OpensFirst st T ∧ PosInv (collsAfter c e.data) st' s

section rules
variable {S : TokSrc σ} {a : Option Token} {x : σ} {T : List Token} {s : PS σ}

theorem pk_peek {Q : Token → PS σ → Prop} (hm : Took S a x T s)
    (h : ∀ t s', Took S a x T s' → s'.avail = some t → s'.state = s.state → s'.states = s.states →
      (∀ u, s.avail = some u → t = u) → Q t s') : wp (peek S) Q Any s := by
  unfold wp peek
  cases ha : s.avail with
  | some t => exact h t s hm ha rfl rfl (fun u hu => by rw [ha] at hu; cases hu; rfl)
  | none =>
    simp only
    cases hn : S.next s.src with
    | error e => trivial
    | ok p =>
      refine h _ _ ?_ rfl rfl rfl (fun u hu => by rw [ha] at hu; cases hu)
      obtain ⟨ts, h1, h2⟩ := hm
      rw [ha] at h2
      exact ⟨ts ++ [p.1], .snoc h1 hn, by rw [← List.append_assoc, h2]; simp⟩

theorem pk_skip {Q : Unit → PS σ → Prop} {t : Token} (hm : Took S a x T s) (ha : s.avail = some t)
    (h : ∀ s', Took S a x (T ++ [t]) s' → s'.avail = none → s'.state = s.state → s'.states = s.states → Q () s') :
    wp skipTok Q Any s := by
  unfold wp skipTok; rw [ha]
  refine h _ ?_ rfl rfl rfl
  obtain ⟨ts, h1, h2⟩ := hm
  exact ⟨ts, h1, by rw [h2, ha]; simp⟩

theorem pk_popMark {Q : Mark → PS σ → Prop} (hm : Took S a x T s)
    (h : ∀ m s', Took S a x T s' → s'.avail = s.avail → s'.state = s.state → s'.states = s.states → Q m s') :
    wp popMark Q Any s := by
  apply tp_popMark
  intro m ms
  exact h m _ (hm.irrel rfl rfl) rfl rfl rfl

end rules

theorem indicators_nil {c : List Coll} {st : Stage} : Indicators c st [] := ⟨[], [], rfl, .inl rfl, .inl rfl⟩

theorem indicators_lead {c : List Coll} {st : Stage} {a : List Token} (h : Lead c st a) : Indicators c st a :=
  ⟨a, [], by simp, h, .inl rfl⟩

theorem indicators_snoc {c : List Coll} {st : Stage} {a : List Token} {t : Token} (h : Lead c st a)
    (ht : isIndicator t.data = true) (hk : c.head? = some (false, .flow) → t.data ≠ .key) : Indicators c st (a ++ [t]) :=
  ⟨a, [t], rfl, h, .inr ⟨t, rfl, ht, hk⟩⟩

theorem lead_nil {c : List Coll} {st : Stage} : Lead c st [] := .inl rfl

theorem OpensFirst.append {st : Stage} {g h : List Token} (ho : OpensFirst st g) : OpensFirst st (g ++ h) := by
  intro hs
  obtain ⟨t, T', rfl, ht⟩ := ho hs
  exact ⟨t, T' ++ h, rfl, ht⟩

theorem opensFirst_plain {T : List Token} : OpensFirst .plain T := fun h => by cases h

/-- Before a node: the tokens `g` in front of it have been taken. -/
structure NodeAhead (S : TokSrc σ) (a : Option Token) (x : σ) (c : List Coll) (st : Stage) (g : List Token) (s : PS σ) : Prop where
  took : Took S a x g s
  ind : Indicators c st g
  first : OpensFirst st g
  colls : c = stackColls s.states
  quiet : ∀ p ∈ s.states, p.quiet = true

section nodes
variable {S : TokSrc σ} {a : Option Token} {x : σ} {c : List Coll} {st : Stage} {g : List Token} {s : PS σ} {n : Int}

/-- The node is finished and its continuation taken from the stack. -/
theorem posInv_pop {s' : PS σ} {p : PState} {K : List PState} (hc : c = stackColls s.states)
    (hq : ∀ p ∈ s.states, p.quiet = true) (hs : s.states = p :: K) (h1 : s'.state = p) (h2 : s'.states = K) :
    PosInv c .plain s' := by
  refine ⟨?_, fun q hq' => hq q (by rw [hs]; rw [h2] at hq'; exact List.mem_cons_of_mem _ hq'), ?_⟩
  · rw [hc, hs, h1, h2]; rfl
  · show s'.state.quiet = true
    rw [h1]; exact hq p (by rw [hs]; simp)

theorem pk_nodeContent {block indentless : Bool} {p : Props} {tag : Option Text} {t f : Token} {ps : List Token}
    (hm : Took S a x (g ++ ps) s) (hi : Indicators c st g) (ho : OpensFirst st g) (hc : c = stackColls s.states)
    (hq : ∀ p ∈ s.states, p.quiet = true) (ha : s.avail = some t) (hp : PropToks ps) (hf : (ps ++ [t]).head? = some f)
    (h1 : p.start = f.start) (h2 : ps ≠ [] → ∃ l, ps.getLast? = some l ∧ p.stop = l.stop)
    (h3 : p.anchor.isSome || tag.isSome → ps ≠ []) :
    wp (nodeContent S n block indentless p tag t) (PosPost S a x c st) Any s := by
  have coll : ∀ (q : PState) (d : EvData), Opening t.data d → collsAfter c d = q.colls ++ c →
      ((q.isFirst = true ∧ opensColl t.data = true) ∨ (q = .indentlessSequenceEntry ∧ t.data = .blockEntry)) →
      PosPost S a x c st ⟨d, p.start, t.stop⟩ ({ s with state := q } : PS σ) := by
    intro q d hd hcd hst
    refine ⟨g ++ ps, .opening, hm.irrel rfl rfl, ?_, ho.append, ⟨by rw [hcd, hc], hq, ?_⟩⟩
    · rw [h1]
      show Placed c st (g ++ ps) s.avail _ _
      rw [ha]
      exact .collection hi hp hd hf
    · rcases hst with ⟨k1, k2⟩ | ⟨k1, k2⟩
      · exact .inl ⟨k1, t, ha, k2⟩
      · exact .inr ⟨k1, t, ha, k2⟩
  unfold nodeContent
  by_cases hb : (indentless && t.data == .blockEntry) = true
  · simp only [hb, if_true]
    rw [wp_bind, wp_setState, wp_pure]
    have hb' : t.data = .blockEntry := by simp at hb; exact hb.2
    exact coll .indentlessSequenceEntry _ (by rw [hb']; trivial) rfl (.inr ⟨rfl, hb'⟩)
  · simp only [hb]
    simp only [Bool.false_eq_true, if_false]
    split
    next v style heq =>
      rw [wp_bind]
      apply tp_popState
      intro q K hst
      rw [wp_bind]
      refine pk_skip (hm.irrel rfl rfl) (by exact ha) ?_
      intro s2 hm2 a2 e2 f2
      rw [wp_pure]
      rw [List.append_assoc] at hm2
      refine ⟨g ++ (ps ++ [t]), .plain, hm2, ?_, ho.append, posInv_pop hc hq hst e2 f2⟩
      rw [h1]
      exact .scalar hi hp heq hf
    next heq =>
      rw [wp_bind]
      apply wp_checkLevel (by simp [Any])
      rw [wp_bind, wp_setState, wp_pure]
      exact coll .flowSequenceFirstEntry _ (by rw [heq]; trivial) rfl (.inl ⟨rfl, by rw [heq]; rfl⟩)
    next heq =>
      rw [wp_bind]
      apply wp_checkLevel (by simp [Any])
      rw [wp_bind, wp_setState, wp_pure]
      exact coll .flowMappingFirstKey _ (by rw [heq]; trivial) rfl (.inl ⟨rfl, by rw [heq]; rfl⟩)
    next =>
      split
      next hcd =>
        rw [wp_bind]
        apply wp_checkLevel (by simp [Any])
        rw [wp_bind, wp_setState, wp_pure]
        simp at hcd
        exact coll .blockSequenceFirstEntry _ (by rw [hcd.2]; trivial) rfl (.inl ⟨rfl, by rw [hcd.2]; rfl⟩)
      next =>
        split
        next hcd =>
          rw [wp_bind]
          apply wp_checkLevel (by simp [Any])
          rw [wp_bind, wp_setState, wp_pure]
          simp at hcd
          exact coll .blockMappingFirstKey _ (by rw [hcd.2]; trivial) rfl (.inl ⟨rfl, by rw [hcd.2]; rfl⟩)
        next =>
          split
          next hpr =>
            rw [wp_bind]
            apply tp_popState
            intro q K hst
            rw [wp_pure]
            have hne := h3 hpr
            obtain ⟨l, hl, hl2⟩ := h2 hne
            have hf' : ps.head? = some f := by
              cases ps with
              | nil => exact absurd rfl hne
              | cons b ps => exact hf
            refine ⟨g ++ ps, .plain, hm.irrel rfl rfl, ?_, ho.append, posInv_pop hc hq hst rfl rfl⟩
            rw [h1, hl2]
            exact .properties hi hp hf' hl
          · exact wp_pfail trivial

theorem pk_parseProps {t : Token} {Q : Props × Token → PS σ → Prop} (hm : Took S a x g s) (ha : s.avail = some t)
    (hQ : ∀ (r : Props × Token) (s' : PS σ) (ps : List Token) (f : Token), Took S a x (g ++ ps) s' → s'.avail = some r.2 →
      s'.states = s.states → PropToks ps → (ps ++ [r.2]).head? = some f → r.1.start = f.start →
      (ps ≠ [] → ∃ l, ps.getLast? = some l ∧ r.1.stop = l.stop) → (r.1.anchor.isSome || r.1.tag.isSome → ps ≠ []) → Q r s') :
    wp (parseProps S t) Q Any s := by
  unfold parseProps
  split
  next an heq =>
    rw [wp_bind]
    refine pk_skip hm ha ?_
    intro s1 hm1 _ _ e1
    rw [wp_bind]
    apply pk_peek hm1
    intro t2 s2 hm2 ha2 _ e2 _
    split
    next hd sf heq2 =>
      rw [wp_bind]
      refine pk_skip hm2 ha2 ?_
      intro s3 hm3 _ _ e3
      rw [wp_bind]
      apply pk_peek hm3
      intro t4 s4 hm4 ha4 _ e4 _
      rw [wp_pure]
      rw [List.append_assoc] at hm4
      refine hQ _ _ _ t hm4 ha4 (by rw [e4, e3, e2, e1]) ⟨?_, by simp⟩ (by simp) rfl (fun _ => ⟨t2, by simp, rfl⟩) (by simp)
      intro u hu
      simp at hu
      rcases hu with rfl | rfl
      · rw [heq]; rfl
      · rw [heq2]; rfl
    next =>
      rw [wp_pure]
      refine hQ _ _ _ t hm2 ha2 (by rw [e2, e1]) ⟨?_, by simp⟩ (by simp) rfl (fun _ => ⟨t, by simp, rfl⟩) (by simp)
      intro u hu
      simp at hu
      rw [hu, heq]; rfl
  next hd sf heq =>
    rw [wp_bind]
    refine pk_skip hm ha ?_
    intro s1 hm1 _ _ e1
    rw [wp_bind]
    apply pk_peek hm1
    intro t2 s2 hm2 ha2 _ e2 _
    split
    next an heq2 =>
      rw [wp_bind]
      refine pk_skip hm2 ha2 ?_
      intro s3 hm3 _ _ e3
      rw [wp_bind]
      apply pk_peek hm3
      intro t4 s4 hm4 ha4 _ e4 _
      rw [wp_pure]
      rw [List.append_assoc] at hm4
      refine hQ _ _ _ t hm4 ha4 (by rw [e4, e3, e2, e1]) ⟨?_, by simp⟩ (by simp) rfl (fun _ => ⟨t2, by simp, rfl⟩) (by simp)
      intro u hu
      simp at hu
      rcases hu with rfl | rfl
      · rw [heq]; rfl
      · rw [heq2]; rfl
    next =>
      rw [wp_pure]
      refine hQ _ _ _ t hm2 ha2 (by rw [e2, e1]) ⟨?_, by simp⟩ (by simp) rfl (fun _ => ⟨t, by simp, rfl⟩) (by simp)
      intro u hu
      simp at hu
      rw [hu, heq]; rfl
  next =>
    rw [wp_pure]
    exact hQ _ _ [] t (by simpa using hm) ha rfl ⟨by simp, by simp⟩ (by simp) rfl (by simp) (by simp)

theorem resolve_isSome {tags : List TagDir} {p : Props} {tag : Option Text} (h : resolveTag tags p = .ok tag) :
    tag.isSome = true → p.tag.isSome = true := by
  unfold resolveTag at h
  cases hp : p.tag with
  | none => rw [hp] at h; cases h; simp
  | some q => simp

theorem pk_parseNode {block indentless : Bool} (h : NodeAhead S a x c st g s) :
    wp (parseNode S n block indentless) (PosPost S a x c st) Any s := by
  unfold parseNode
  rw [wp_bind]
  apply pk_peek h.took
  intro t s1 hm1 ha1 _ e1 _
  split
  next al heq =>
    rw [wp_bind]
    apply tp_popState
    intro q K hst
    rw [wp_bind]
    refine pk_skip (hm1.irrel rfl rfl) (by exact ha1) ?_
    intro s2 hm2 a2 e2 f2
    rw [wp_pure]
    exact ⟨g ++ [t], .plain, hm2, .alias h.ind heq, h.first.append, posInv_pop h.colls h.quiet (by rw [← e1]; exact hst) e2 f2⟩
  next =>
    rw [wp_bind]
    apply pk_parseProps hm1 ha1
    rintro ⟨p, t'⟩ s2 ps f hm2 ha2 e2 k1 k2 k3 k4 k5
    simp only at *
    rw [wp_bind]
    unfold resolveTagM
    rw [wp_bind, wp_getTags]
    cases hr : resolveTag s2.tags p with
    | error e => trivial
    | ok tag =>
      simp only
      rw [wp_pure]
      refine pk_nodeContent hm2 h.ind h.first (by rw [e2, e1]; exact h.colls) (by rw [e2, e1]; exact h.quiet) ha2 k1 k2 k3 k4 ?_
      intro hx
      apply k5
      cases hpa : p.anchor.isSome with
      | true => rfl
      | false =>
        rw [hpa] at hx
        simpa using resolve_isSome hr (by simpa using hx)

end nodes

section states
variable {S : TokSrc σ} {a : Option Token} {x : σ} {c : List Coll} {st : Stage} {g : List Token} {s : PS σ} {n : Int}

/-- A continuation has been pushed. -/
theorem nodeAhead_push {s' : PS σ} {q : PState} (ht : Took S a x g s) (hi : Indicators c st g) (ho : OpensFirst st g)
    (hc : c = q.colls ++ stackColls s.states) (hq : ∀ p ∈ s.states, p.quiet = true) (hk : q.quiet = true)
    (h1 : s'.avail = s.avail) (h2 : s'.src = s.src) (h3 : s'.states = q :: s.states) : NodeAhead S a x c st g s' :=
  ⟨ht.irrel h1 h2, hi, ho, by rw [h3]; exact hc, by
    rw [h3]
    intro p hp
    rcases List.mem_cons.mp hp with rfl | hp
    · exact hk
    · exact hq p hp⟩

/-- An empty node. -/
theorem pk_empty {m : Mark} (ht : Took S a x g s) (ho : OpensFirst st g) (hp : Placed c st g s.avail ⟨noNode, m, m⟩ .plain)
    (hc : c = s.state.colls ++ stackColls s.states) (hq : ∀ p ∈ s.states, p.quiet = true) (hk : s.state.quiet = true) :
    wp (emptyScalar m) (PosPost S a x c st) Any s := by
  unfold emptyScalar
  rw [wp_pure]
  exact ⟨g, .plain, ht, hp, ho, hc, hq, hk⟩

/-- The first token of the collection has been taken if that was still to be done. -/
def Entering (s : PS σ) (st : Stage) (first : Bool) : Prop :=
  if first then st = .opening ∧ ∃ t, s.avail = some t ∧ opensColl t.data = true else st = .plain

theorem pk_enter {first : Bool} {Q : Unit → PS σ → Prop} (ht : Took S a x [] s) (he : Entering s st first)
    (hQ : ∀ s' g, Took S a x g s' → Lead c st g → OpensFirst st g → (first = false → g = []) → s'.state = s.state →
      s'.states = s.states → Q () s') : wp (enterCollection S first) Q Any s := by
  unfold enterCollection
  cases first
  · simp only [Bool.false_eq_true, if_false]
    have : st = .plain := he
    subst this
    exact hQ s [] ht (.inl rfl) (fun h => by cases h) (fun _ => rfl) rfl rfl
  · simp only [if_true]
    obtain ⟨rfl, t, ha, hn⟩ := he
    rw [wp_bind]
    unfold wp peekUnchecked peek
    rw [ha]
    show wp (do pushMark t.start; skipTok) Q Any s
    rw [wp_bind, wp_pushMark]
    refine pk_skip (ht.irrel rfl rfl) (by exact ha) ?_
    intro s' hm _ e1 e2
    exact hQ s' [t] hm (.inr ⟨t, rfl, .inl ⟨rfl, hn⟩⟩) (fun _ => ⟨t, [], rfl, .inl hn⟩) (fun h => by cases h) e1 e2

/-- The end of a collection at its own token. -/
theorem pk_endFlow {d : EvData} {t : Token} (ht : Took S a x g s) (hl : Lead c st g) (ho : OpensFirst st g)
    (ha : s.avail = some t) (hd : Closing t.data d) (hc : collsAfter c d = stackColls s.states)
    (hq : ∀ p ∈ s.states, p.quiet = true) : wp (endFlow d t) (PosPost S a x c st) Any s := by
  unfold endFlow
  rw [wp_bind]
  apply tp_popState
  intro q K hst
  rw [wp_bind]
  refine pk_popMark (T := g) (ht.irrel rfl rfl) ?_
  intro m s2 hm2 a2 e2 f2
  rw [wp_bind]
  refine pk_skip hm2 (by rw [a2]; exact ha) ?_
  intro s3 hm3 a3 e3 f3
  rw [wp_pure]
  exact ⟨g ++ [t], .plain, hm3, .close hl hd, ho.append, posInv_pop hc hq hst (by rw [e3, e2]) (by rw [f3, f2])⟩

theorem pk_blockSequenceEntry {first : Bool} (ht : Took S a x [] s) (he : Entering s st first)
    (hc : c = (false, .block) :: stackColls s.states) (hq : ∀ p ∈ s.states, p.quiet = true) :
    wp (parseBlockSequenceEntry S n first) (PosPost S a x c st) Any s := by
  unfold parseBlockSequenceEntry
  rw [wp_bind]
  apply pk_enter (c := c) ht he
  intro s1 g h1 hl ho _ _ f1
  rw [wp_bind]
  apply pk_peek h1
  intro t s2 h2 ha2 _ f2 _
  split
  next heq =>
    rw [wp_bind]
    refine pk_skip h2 ha2 ?_
    intro s3 h3 _ _ f3
    rw [wp_bind]
    apply pk_peek h3
    intro t4 s4 h4 ha4 _ f4 _
    have hs : s4.states = s.states := by rw [f4, f3, f2, f1]
    split
    · rw [wp_bind, wp_pushState]
      refine pk_parseNode (nodeAhead_push h4 (indicators_snoc hl (by rw [heq]; rfl) ?_) ho.append (q := .blockSequenceEntry)
        (by rw [hs]; exact hc) (by rw [hs]; exact hq) rfl rfl rfl rfl)
      rw [hc]; intro hx; cases hx
    · rw [wp_bind, wp_setState]
      exact pk_empty (h4.irrel rfl rfl) ho.append (.afterIndicator (by rw [hc]; rfl) hl (by rw [heq]; rfl))
        (by show c = _ ++ stackColls s4.states; rw [hs]; exact hc) (by show ∀ p ∈ s4.states, _; rw [hs]; exact hq) rfl
  next heq =>
    exact pk_endFlow h2 hl ho ha2 (by rw [heq]; trivial) (by rw [hc, f2, f1]; rfl) (by rw [f2, f1]; exact hq)
  next =>
    rw [wp_bind]
    apply pk_popMark h2
    intro m s3 _ _ _ _
    exact wp_pfail trivial

theorem pk_indentless (ht : Took S a x [] s) (hs : st = .opening ∧ (∃ t, s.avail = some t ∧ t.data = .blockEntry) ∨ st = .plain)
    (hc : c = (false, .block) :: stackColls s.states) (hq : ∀ p ∈ s.states, p.quiet = true) :
    wp (parseIndentlessSequenceEntry S n) (PosPost S a x c st) Any s := by
  unfold parseIndentlessSequenceEntry
  rw [wp_bind]
  apply pk_peek ht
  intro t s2 h2 ha2 _ f2 same
  split
  next heq =>
    have ho : OpensFirst st [t] := fun _ => ⟨t, [], rfl, .inr heq⟩
    rw [wp_bind]
    refine pk_skip h2 ha2 ?_
    intro s3 h3 _ _ f3
    rw [wp_bind]
    apply pk_peek h3
    intro t4 s4 h4 ha4 _ f4 _
    have hs : s4.states = s.states := by rw [f4, f3, f2]
    split
    · rw [wp_bind, wp_pushState]
      refine pk_parseNode (nodeAhead_push h4 (indicators_snoc lead_nil (by rw [heq]; rfl) ?_) ho (q := .indentlessSequenceEntry)
        (by rw [hs]; exact hc) (by rw [hs]; exact hq) rfl rfl rfl rfl)
      rw [hc]; intro hx; cases hx
    · rw [wp_bind, wp_setState]
      exact pk_empty (h4.irrel rfl rfl) ho (.afterIndicator (g := []) (by rw [hc]; rfl) lead_nil (by rw [heq]; rfl))
        (by show c = _ ++ stackColls s4.states; rw [hs]; exact hc) (by show ∀ p ∈ s4.states, _; rw [hs]; exact hq) rfl
  next hne =>
    have hp : st = .plain := by
      rcases hs with ⟨_, u, hu, hd⟩ | hs
      · rw [same u hu] at hne; exact absurd hd hne
      · exact hs
    subst hp
    rw [wp_bind]
    apply tp_popState
    intro q K hst
    rw [wp_pure]
    refine ⟨[], .plain, h2.irrel rfl rfl, ?_, opensFirst_plain,
      posInv_pop (s := s) (p := q) (K := K) ?_ hq (by rw [← f2]; exact hst) rfl rfl⟩
    · show Placed c _ [] s2.avail _ _
      rw [ha2]; exact .dedent (by rw [hc]; rfl)
    · rw [hc]; rfl

theorem pk_blockMappingKey {first : Bool} (ht : Took S a x [] s) (he : Entering s st first)
    (hc : c = (true, .block) :: stackColls s.states) (hq : ∀ p ∈ s.states, p.quiet = true) :
    wp (parseBlockMappingKey S n first) (PosPost S a x c st) Any s := by
  unfold parseBlockMappingKey
  rw [wp_bind]
  apply pk_enter (c := c) ht he
  intro s1 g h1 hl ho _ _ f1
  rw [wp_bind]
  apply pk_peek h1
  intro t s2 h2 ha2 _ f2 _
  split
  next heq =>
    rw [wp_bind]
    refine pk_skip h2 ha2 ?_
    intro s3 h3 _ _ f3
    rw [wp_bind]
    apply pk_peek h3
    intro t4 s4 h4 ha4 _ f4 _
    have hs : s4.states = s.states := by rw [f4, f3, f2, f1]
    split
    · rw [wp_bind, wp_pushState]
      refine pk_parseNode (nodeAhead_push h4 (indicators_snoc hl (by rw [heq]; rfl) ?_) ho.append (q := .blockMappingValue)
        (by rw [hs]; exact hc) (by rw [hs]; exact hq) rfl rfl rfl rfl)
      rw [hc]; intro hx; cases hx
    · rw [wp_bind, wp_setState]
      exact pk_empty (h4.irrel rfl rfl) ho.append (.afterIndicator (by rw [hc]; rfl) hl (by rw [heq]; rfl))
        (by show c = _ ++ stackColls s4.states; rw [hs]; exact hc) (by show ∀ p ∈ s4.states, _; rw [hs]; exact hq) rfl
  next heq =>
    exact pk_endFlow h2 hl ho ha2 (by rw [heq]; trivial) (by rw [hc, f2, f1]; rfl) (by rw [f2, f1]; exact hq)
  next =>
    rw [wp_bind]
    apply pk_popMark h2
    intro m s3 _ _ _ _
    exact wp_pfail trivial

theorem pk_blockMappingValue (ht : Took S a x [] s) (hs : st = .plain)
    (hc : c = (true, .block) :: stackColls s.states) (hq : ∀ p ∈ s.states, p.quiet = true) :
    wp (parseBlockMappingValue S n) (PosPost S a x c st) Any s := by
  subst hs
  have ho : ∀ g, OpensFirst .plain g := fun g h => by cases h
  unfold parseBlockMappingValue
  rw [wp_bind]
  apply pk_peek ht
  intro t s2 h2 ha2 _ f2 _
  split
  next heq =>
    rw [wp_bind]
    refine pk_skip h2 ha2 ?_
    intro s3 h3 _ _ f3
    rw [wp_bind]
    apply pk_peek h3
    intro t4 s4 h4 ha4 _ f4 _
    have hs : s4.states = s.states := by rw [f4, f3, f2]
    split
    · rw [wp_bind, wp_pushState]
      refine pk_parseNode (nodeAhead_push h4 (indicators_snoc lead_nil (by rw [heq]; rfl) ?_) (ho _) (q := .blockMappingKey)
        (by rw [hs]; exact hc) (by rw [hs]; exact hq) rfl rfl rfl rfl)
      rw [hc]; intro hx; cases hx
    · rw [wp_bind, wp_setState]
      exact pk_empty (h4.irrel rfl rfl) (ho _) (.afterIndicator (g := []) (by rw [hc]; rfl) lead_nil (by rw [heq]; rfl))
        (by show c = _ ++ stackColls s4.states; rw [hs]; exact hc) (by show ∀ p ∈ s4.states, _; rw [hs]; exact hq) rfl
  next =>
    rw [wp_bind, wp_setState]
    exact pk_empty (h2.irrel rfl rfl) (ho _) (by show Placed c _ [] s2.avail _ _; rw [ha2]; exact .missing)
      (by show c = _ ++ stackColls s2.states; rw [f2]; exact hc) (by show ∀ p ∈ s2.states, _; rw [f2]; exact hq) rfl

theorem pk_separator {first : Bool} {t : Token} {p q : String} {Q : Token → PS σ → Prop} (h : Took S a x g s)
    (ha : s.avail = some t) (hl : Lead c st g) (ho : OpensFirst st g) (hg : first = false → g = []) (hf : inFlow c = true)
    (hst : first = false → st = .plain)
    (hQ : ∀ t' s' g', Took S a x g' s' → s'.avail = some t' → Lead c st g' → OpensFirst st g' → s'.states = s.states → Q t' s') :
    wp (flowSeparator S first t p q) Q Any s := by
  unfold flowSeparator
  cases first
  · simp only [Bool.false_eq_true, if_false]
    rw [hg rfl] at h
    have := hst rfl
    subst this
    split
    next heq =>
      rw [wp_bind]
      refine pk_skip h ha ?_
      intro s1 h1 _ _ f1
      apply pk_peek h1
      intro t2 s2 h2 ha2 _ f2 _
      exact hQ t2 s2 _ h2 ha2 (.inr ⟨t, rfl, .inr ⟨by simp, hf, heq⟩⟩) (fun h => by cases h) (by rw [f2, f1])
    next =>
      rw [wp_bind]
      apply pk_popMark h
      intro m s3 _ _ _ _
      exact wp_pfail trivial
  · simp only [if_true]
    rw [wp_pure]
    exact hQ t s g h ha hl ho rfl

theorem entering_plain {first : Bool} (he : Entering s st first) (hf : first = false) : st = .plain := by
  subst hf; exact he

theorem pk_flowSequenceEntry {first : Bool} (ht : Took S a x [] s) (he : Entering s st first)
    (hc : c = (false, .flow) :: stackColls s.states) (hq : ∀ p ∈ s.states, p.quiet = true) :
    wp (parseFlowSequenceEntry S n first) (PosPost S a x c st) Any s := by
  unfold parseFlowSequenceEntry
  rw [wp_bind]
  apply pk_enter (c := c) ht he
  intro s1 g h1 hl ho hg _ f1
  rw [wp_bind]
  apply pk_peek h1
  intro t s2 h2 ha2 _ f2 _
  split
  next =>
    rw [wp_bind]
    apply pk_separator h2 ha2 hl ho hg (by rw [hc]; rfl) (entering_plain he)
    intro t3 s3 g3 h3 ha3 hl3 ho3 f3
    have hs : s3.states = s.states := by rw [f3, f2, f1]
    split
    next heq =>
      rw [wp_bind, wp_setState, wp_bind]
      refine pk_skip (T := g3) (h3.irrel rfl rfl) (by exact ha3) ?_
      intro s4 h4 a4 e4 f4
      rw [wp_pure]
      refine ⟨g3 ++ [t3], .pair, h4, .pair (by rw [hc]; rfl) hl3 heq, ho3.append, ⟨?_, ?_, e4⟩⟩
      · rw [e4, f4]
        show (true, CollStyle.flow) :: c = [(true, .flow), (false, .flow)] ++ stackColls s3.states
        rw [hs, hc]; rfl
      · rw [f4]; show ∀ p ∈ s3.states, _; rw [hs]; exact hq
    next hk =>
      split
      next =>
        rw [wp_bind, wp_pushState]
        exact pk_parseNode (nodeAhead_push h3 (indicators_lead hl3) ho3 (q := .flowSequenceEntry)
          (by rw [hs]; exact hc) (by rw [hs]; exact hq) rfl rfl rfl rfl)
      next heq =>
        exact pk_endFlow h3 hl3 ho3 ha3 (by rw [Decidable.not_not.mp heq]; trivial) (by rw [hc, hs]; rfl) (by rw [hs]; exact hq)
  next heq =>
    exact pk_endFlow h2 hl ho ha2 (by rw [Decidable.not_not.mp heq]; trivial) (by rw [hc, f2, f1]; rfl) (by rw [f2, f1]; exact hq)

theorem pk_fseKey (ht : Took S a x [] s) (hs : st = .pair)
    (hc : c = (true, .flow) :: (false, .flow) :: stackColls s.states) (hq : ∀ p ∈ s.states, p.quiet = true) :
    wp (parseFlowSequenceEntryMappingKey S n) (PosPost S a x c st) Any s := by
  subst hs
  have ho : ∀ g, OpensFirst .pair g := fun g h => by cases h
  unfold parseFlowSequenceEntryMappingKey
  rw [wp_bind]
  apply pk_peek ht
  intro t s2 h2 ha2 _ f2 _
  split
  next =>
    rw [wp_bind, wp_pushState]
    exact pk_parseNode (nodeAhead_push h2 indicators_nil (ho _) (q := .flowSequenceEntryMappingValue)
      (by rw [f2]; exact hc) (by rw [f2]; exact hq) rfl rfl rfl rfl)
  next hcd =>
    split
    next =>
      rw [wp_bind, wp_setState]
      exact pk_empty (h2.irrel rfl rfl) (ho _) (by show Placed c _ [] s2.avail _ _; rw [ha2]; exact .missing)
        (by show c = _ ++ stackColls s2.states; rw [f2]; exact hc) (by show ∀ p ∈ s2.states, _; rw [f2]; exact hq) rfl
    next hne =>
      have hn : t.data = .value ∨ t.data = .flowEntry := by
        by_cases k1 : t.data = .value
        · exact .inl k1
        · by_cases k3 : t.data = .flowEntry
          · exact .inr k3
          · exact absurd ⟨k1, k3, hne⟩ hcd
      rw [wp_bind]
      refine pk_skip h2 ha2 ?_
      intro s3 h3 _ _ f3
      rw [wp_bind, wp_setState]
      exact pk_empty (h3.irrel rfl rfl) (ho _) (.pairKey rfl hn)
        (by show c = _ ++ stackColls s3.states; rw [f3, f2]; exact hc) (by show ∀ p ∈ s3.states, _; rw [f3, f2]; exact hq) rfl

theorem pk_fseValue (ht : Took S a x [] s) (hs : st = .plain)
    (hc : c = (true, .flow) :: (false, .flow) :: stackColls s.states) (hq : ∀ p ∈ s.states, p.quiet = true) :
    wp (parseFlowSequenceEntryMappingValue S n) (PosPost S a x c st) Any s := by
  subst hs
  have ho : ∀ g, OpensFirst .plain g := fun g h => by cases h
  unfold parseFlowSequenceEntryMappingValue
  rw [wp_bind]
  apply pk_peek ht
  intro t s2 h2 ha2 _ f2 _
  split
  next heq =>
    rw [wp_bind]
    refine pk_skip h2 ha2 ?_
    intro s3 h3 _ _ f3
    rw [wp_bind]
    apply pk_peek h3
    intro t4 s4 h4 ha4 _ f4 _
    have hs : s4.states = s.states := by rw [f4, f3, f2]
    have hi : Indicators c .plain ([] ++ [t]) := indicators_snoc lead_nil (by rw [heq]; rfl) (by rw [hc]; intro hx; cases hx)
    split
    · rw [wp_bind, wp_pushState]
      exact pk_parseNode (nodeAhead_push h4 hi (ho _) (q := .flowSequenceEntryMappingEnd)
        (by rw [hs]; exact hc) (by rw [hs]; exact hq) rfl rfl rfl rfl)
    · rw [wp_bind, wp_setState]
      exact pk_empty (h4.irrel rfl rfl) (ho _)
        (by show Placed c _ _ s4.avail _ _; rw [ha4]; exact .beforeNext (by rw [hc]; rfl) (by simp) hi)
        (by show c = _ ++ stackColls s4.states; rw [hs]; exact hc) (by show ∀ p ∈ s4.states, _; rw [hs]; exact hq) rfl
  next =>
    rw [wp_bind, wp_setState]
    exact pk_empty (h2.irrel rfl rfl) (ho _) (by show Placed c _ [] s2.avail _ _; rw [ha2]; exact .missing)
      (by show c = _ ++ stackColls s2.states; rw [f2]; exact hc) (by show ∀ p ∈ s2.states, _; rw [f2]; exact hq) rfl

theorem pk_fseEnd (ht : Took S a x [] s) (hs : st = .plain)
    (hc : c = (true, .flow) :: (false, .flow) :: stackColls s.states) (hq : ∀ p ∈ s.states, p.quiet = true) :
    wp (parseFlowSequenceEntryMappingEnd S) (PosPost S a x c st) Any s := by
  subst hs
  unfold parseFlowSequenceEntryMappingEnd
  rw [wp_bind]
  apply pk_peek ht
  intro t s2 h2 ha2 _ f2 _
  rw [wp_bind, wp_setState, wp_pure]
  refine ⟨[], .plain, h2.irrel rfl rfl, ?_, opensFirst_plain, ?_, ?_, rfl⟩
  · show Placed c _ [] s2.avail _ _
    rw [ha2]; exact .pairEnd hc
  · show c.tail = _ ++ stackColls s2.states
    rw [f2, hc]; rfl
  · show ∀ p ∈ s2.states, _; rw [f2]; exact hq

theorem pk_flowMappingKey {first : Bool} (ht : Took S a x [] s) (he : Entering s st first)
    (hc : c = (true, .flow) :: stackColls s.states) (hq : ∀ p ∈ s.states, p.quiet = true) :
    wp (parseFlowMappingKey S n first) (PosPost S a x c st) Any s := by
  have hns : st ≠ .pair := by
    cases first with
    | true => rw [he.1]; simp
    | false => rw [show st = .plain from he]; simp
  unfold parseFlowMappingKey
  rw [wp_bind]
  apply pk_enter (c := c) ht he
  intro s1 g h1 hl ho hg _ f1
  rw [wp_bind]
  apply pk_peek h1
  intro t s2 h2 ha2 _ f2 _
  split
  next =>
    rw [wp_bind]
    apply pk_separator h2 ha2 hl ho hg (by rw [hc]; rfl) (entering_plain he)
    intro t3 s3 g3 h3 ha3 hl3 ho3 f3
    have hs : s3.states = s.states := by rw [f3, f2, f1]
    split
    next heq =>
      rw [wp_bind]
      refine pk_skip h3 ha3 ?_
      intro s4 h4 _ _ f4
      rw [wp_bind]
      apply pk_peek h4
      intro t5 s5 h5 ha5 _ f5 _
      have hs5 : s5.states = s.states := by rw [f5, f4, hs]
      have hi : Indicators c st (g3 ++ [t3]) := indicators_snoc hl3 (by rw [heq]; rfl) (by rw [hc]; intro hx; cases hx)
      split
      · rw [wp_bind, wp_pushState]
        exact pk_parseNode (nodeAhead_push h5 hi ho3.append (q := .flowMappingValue)
          (by rw [hs5]; exact hc) (by rw [hs5]; exact hq) rfl rfl rfl rfl)
      · rw [wp_bind, wp_setState]
        exact pk_empty (h5.irrel rfl rfl) ho3.append
          (by show Placed c _ _ s5.avail _ _; rw [ha5]; exact .beforeNext (by rw [hc]; rfl) hns hi)
          (by show c = _ ++ stackColls s5.states; rw [hs5]; exact hc) (by show ∀ p ∈ s5.states, _; rw [hs5]; exact hq) rfl
    next =>
      split
      next =>
        rw [wp_bind, wp_pushState]
        exact pk_parseNode (nodeAhead_push h3 (indicators_lead hl3) ho3 (q := .flowMappingEmptyValue)
          (by rw [hs]; exact hc) (by rw [hs]; exact hq) rfl rfl rfl rfl)
      next heq =>
        exact pk_endFlow h3 hl3 ho3 ha3 (by rw [Decidable.not_not.mp heq]; trivial) (by rw [hc, hs]; rfl) (by rw [hs]; exact hq)
  next heq =>
    exact pk_endFlow h2 hl ho ha2 (by rw [Decidable.not_not.mp heq]; trivial) (by rw [hc, f2, f1]; rfl) (by rw [f2, f1]; exact hq)

theorem pk_flowMappingValue {empty : Bool} (ht : Took S a x [] s) (hs : st = .plain)
    (hc : c = (true, .flow) :: stackColls s.states) (hq : ∀ p ∈ s.states, p.quiet = true) :
    wp (parseFlowMappingValue S n empty) (PosPost S a x c st) Any s := by
  subst hs
  have ho : ∀ g, OpensFirst .plain g := fun g h => by cases h
  unfold parseFlowMappingValue
  rw [wp_bind]
  apply pk_peek ht
  intro t s2 h2 ha2 _ f2 _
  have none : wp (do setState .flowMappingKey; emptyScalar t.start) (PosPost S a x c .plain) Any s2 := by
    rw [wp_bind, wp_setState]
    exact pk_empty (h2.irrel rfl rfl) (ho _) (by show Placed c _ [] s2.avail _ _; rw [ha2]; exact .missing)
      (by show c = _ ++ stackColls s2.states; rw [f2]; exact hc) (by show ∀ p ∈ s2.states, _; rw [f2]; exact hq) rfl
  split
  next => exact none
  next =>
    split
    next heq =>
      rw [wp_bind]
      refine pk_skip h2 ha2 ?_
      intro s3 h3 _ _ f3
      rw [wp_bind]
      apply pk_peek h3
      intro t4 s4 h4 ha4 _ f4 _
      have hs : s4.states = s.states := by rw [f4, f3, f2]
      have hi : Indicators c .plain ([] ++ [t]) := indicators_snoc lead_nil (by rw [heq]; rfl) (by rw [hc]; intro hx; cases hx)
      split
      · rw [wp_bind, wp_pushState]
        exact pk_parseNode (nodeAhead_push h4 hi (ho _) (q := .flowMappingKey)
          (by rw [hs]; exact hc) (by rw [hs]; exact hq) rfl rfl rfl rfl)
      · rw [wp_bind, wp_setState]
        exact pk_empty (h4.irrel rfl rfl) (ho _)
          (by show Placed c _ _ s4.avail _ _; rw [ha4]; exact .beforeNext (by rw [hc]; rfl) (by simp) hi)
          (by show c = _ ++ stackColls s4.states; rw [hs]; exact hc) (by show ∀ p ∈ s4.states, _; rw [hs]; exact hq) rfl
    next => exact none

/-! ### Documents -/

theorem pk_directivesLoop (fuel : Nat) {v : Option Version} {ts : List TagDir}
    {Q : Option Version × List TagDir → PS σ → Prop} (hm : Took S a x g s)
    (hQ : ∀ r (s' : PS σ) (ds : List Token) (t : Token), Took S a x (g ++ ds) s' → s'.avail = some t → s'.states = s.states →
      (∀ d ∈ ds, isDirective d.data = true) → (∀ u, s.avail = some u → (ds ++ [t]).head? = some u) → Q r s') :
    wp (directivesLoop S fuel v ts) Q Any s := by
  induction fuel generalizing g v ts s with
  | zero => exact wp_pfail trivial
  | succ fuel ih =>
    have step : ∀ {t : Token} {s1 s1' : PS σ} {v : Option Version} {ts : List TagDir}, isDirective t.data = true → Took S a x g s1 →
        s1.avail = some t → s1.states = s.states → (∀ u, s.avail = some u → t = u) → s1'.avail = s1.avail → s1'.src = s1.src →
        s1'.states = s1.states →
        wp (do skipTok; directivesLoop S fuel v ts) Q Any s1' := by
      intro t s1 s1' v ts hd h1 ha1 f1 same k1 k2 k3
      rw [wp_bind]
      refine pk_skip (h1.irrel k1 k2) (by rw [k1]; exact ha1) ?_
      intro s2 h2 a2 _ f2
      apply ih h2
      intro r s' ds t' h3 ha3 f3 hds _
      rw [List.append_assoc] at h3
      refine hQ r s' ([t] ++ ds) t' h3 ha3 (by rw [f3, f2, k3, f1]) ?_ (fun u hu => by rw [same u hu]; rfl)
      intro d hm
      rcases List.mem_append.mp hm with hm | hm
      · simp at hm; rw [hm]; exact hd
      · exact hds d hm
    unfold directivesLoop
    rw [wp_bind]
    apply pk_peek hm
    intro t s1 h1 ha1 _ f1 same
    split
    next ver heq =>
      split
      · exact wp_pfail trivial
      · split
        · exact wp_pfail trivial
        · exact step (by rw [heq]; rfl) h1 ha1 f1 same rfl rfl rfl
    next d heq =>
      rw [wp_bind]
      apply wp_appendTagM (by simp [Any])
      intro ts'
      exact step (by rw [heq]; rfl) h1 ha1 f1 same rfl rfl rfl
    next =>
      rw [wp_pure]
      exact hQ _ s1 [] t (by simpa using h1) ha1 f1 (by simp) (fun u hu => by rw [same u hu]; rfl)

theorem pk_processDirectives (fuel : Nat) {Q : Option Version × List TagDir → PS σ → Prop} (hm : Took S a x g s)
    (hQ : ∀ r (s' : PS σ) (ds : List Token) (t : Token), Took S a x (g ++ ds) s' → s'.avail = some t → s'.states = s.states →
      (∀ d ∈ ds, isDirective d.data = true) → (∀ u, s.avail = some u → (ds ++ [t]).head? = some u) → Q r s') :
    wp (processDirectives S fuel) Q Any s := by
  unfold processDirectives
  rw [wp_bind]
  apply pk_directivesLoop fuel hm
  intro r s1 ds t h1 ha1 f1 k1 k2
  rw [wp_bind]
  apply pk_peek h1
  intro t' s2 h2 ha2 _ f2 same
  rw [wp_bind]
  apply wp_appendTagM (by simp [Any])
  intro ts1
  rw [wp_bind]
  apply wp_appendTagM (by simp [Any])
  intro ts2
  rw [wp_pure]
  exact hQ r _ ds t (h2.irrel rfl rfl) (by show s2.avail = _; rw [ha2, same t ha1]) (by show s2.states = _; rw [f2, f1]) k1 k2

theorem pk_skipDocumentEnds (fuel : Nat) {Q : Unit → PS σ → Prop} (hm : Took S a x g s)
    (hQ : ∀ (s' : PS σ) (ds : List Token), Took S a x (g ++ ds) s' → s'.states = s.states → (∀ d ∈ ds, d.data = .documentEnd) → Q () s') :
    wp (skipDocumentEnds S fuel) Q Any s := by
  induction fuel generalizing g s with
  | zero => exact wp_pfail trivial
  | succ fuel ih =>
    unfold skipDocumentEnds
    rw [wp_bind]
    apply pk_peek hm
    intro t s1 h1 ha1 _ f1 _
    split
    next heq =>
      rw [wp_bind]
      refine pk_skip h1 ha1 ?_
      intro s2 h2 _ _ f2
      apply ih h2
      intro s' ds h3 f3 hds
      rw [List.append_assoc] at h3
      refine hQ s' ([t] ++ ds) h3 (by rw [f3, f2, f1]) ?_
      intro d hm
      rcases List.mem_append.mp hm with hm | hm
      · simp at hm; rw [hm]; exact heq
      · exact hds d hm
    next =>
      rw [wp_pure]
      exact hQ s1 [] (by simpa using h1) f1 (by simp)

theorem pk_documentStart (fuel : Nat) {implicit : Bool} (ht : Took S a x [] s) (hc : c = stackColls s.states)
    (hq : ∀ p ∈ s.states, p.quiet = true) (hs : st = .plain) :
    wp (parseDocumentStart S fuel implicit) (PosPost S a x c st) Any s := by
  subst hs
  have body : ∀ {s1 : PS σ} {ds : List Token}, Took S a x ds s1 → s1.states = s.states → (∀ d ∈ ds, d.data = .documentEnd) →
      (implicit = true → ds = []) →
      wp (do
        let token ← peek S
        if implicit && !token.data.startsDocument then
          let _ ← processDirectives S fuel
          pushState .documentEnd
          setState .blockNode
          pure { data := .documentStart none [] true, start := token.start, stop := token.start }
        else if token.data ≠ .streamEnd then
          let start := token.start
          let (version, tags) ← processDirectives S fuel
          let token ← peek S
          if token.data = .documentStart then
            pushState .documentEnd
            setState .documentContent
            skipTok
            pure { data := .documentStart version tags false, start := start, stop := token.stop }
          else perr "did not find expected <document start>" token.start
        else
          setState .done
          skipTok
          pure { data := .streamEnd, start := token.start, stop := token.stop } : PM σ Event) (PosPost S a x c .plain) Any s1 := by
    intro s1 ds h1 f1 hds hi
    rw [wp_bind]
    apply pk_peek h1
    intro t s2 h2 ha2 _ f2 _
    split
    next himp =>
      rw [wp_bind]
      simp only [Bool.and_eq_true, Bool.not_eq_true'] at himp
      have hd := hi himp.1
      subst hd
      apply pk_processDirectives fuel h2
      intro r s3 dirs t3 h3 ha3 f3 k1 k2
      have hk := k2 t ha2
      have hnil : dirs = [] := by
        cases dirs with
        | nil => rfl
        | cons d dirs =>
          have : d = t := by simpa using hk
          have hd := k1 d (by simp)
          rw [this] at hd
          cases htd : t.data <;> rw [htd] at hd himp <;> first | (cases hd; done) | (have := himp.2; cases this; done)
      subst hnil
      have ht3 : t3 = t := by simpa using hk
      subst ht3
      rw [wp_bind, wp_pushState, wp_bind, wp_setState, wp_pure]
      refine ⟨[], .plain, h3.irrel rfl rfl, ?_, opensFirst_plain, ?_, ?_, rfl⟩
      · show Placed c _ [] s3.avail _ _
        rw [ha3]; exact .documentStart
      · show c = stackColls s3.states
        rw [f3, f2, f1]; exact hc
      · intro p hp
        rcases List.mem_cons.mp hp with rfl | hp
        · rfl
        · exact hq p (by rw [← f1, ← f2, ← f3]; exact hp)
    next =>
      split
      next =>
        rw [wp_bind]
        apply pk_processDirectives fuel h2
        intro r s3 dirs t3 h3 ha3 f3 k1 k2
        rw [wp_bind]
        apply pk_peek h3
        intro t4 s4 h4 ha4 _ f4 same
        have h34 := same t3 ha3
        subst h34
        split
        next heq =>
          rw [wp_bind, wp_pushState, wp_bind, wp_setState, wp_bind]
          refine pk_skip (T := ds ++ dirs) (h4.irrel rfl rfl) (by exact ha4) ?_
          intro s5 h5 a5 e5 f5
          rw [wp_pure]
          rw [List.append_assoc] at h5
          refine ⟨_, .plain, h5, .documentMarker hds k1 heq (k2 t ha2), opensFirst_plain, ?_, ?_, ?_⟩
          · rw [e5, f5]
            show c = stackColls s4.states
            rw [f4, f3, f2, f1]; exact hc
          · rw [f5]
            intro p hp
            rcases List.mem_cons.mp hp with rfl | hp
            · rfl
            · exact hq p (by rw [← f1, ← f2, ← f3, ← f4]; exact hp)
          · show s5.state.quiet = true
            rw [e5]; rfl
        next => exact wp_pfail trivial
      next heq =>
        rw [wp_bind, wp_setState, wp_bind]
        refine pk_skip (T := ds) (h2.irrel rfl rfl) (by exact ha2) ?_
        intro s5 h5 a5 e5 f5
        rw [wp_pure]
        refine ⟨_, .over, h5, .streamEnd hds (Decidable.not_not.mp heq), opensFirst_plain, ?_, ?_, e5, a5⟩
        · rw [e5, f5]
          show c = stackColls s2.states
          rw [f2, f1]; exact hc
        · rw [f5]
          show ∀ p ∈ s2.states, _
          rw [f2, f1]; exact hq
  unfold parseDocumentStart
  cases implicit with
  | true =>
    simp only [Bool.not_true, Bool.false_eq_true, if_false]
    exact body ht rfl (by simp) (fun _ => rfl)
  | false =>
    simp only [Bool.not_false, if_true]
    rw [wp_bind]
    apply pk_skipDocumentEnds fuel ht
    intro s1 ds h1 f1 hds
    exact body h1 f1 hds (fun h => by cases h)

theorem pk_documentContent (ht : Took S a x [] s) (hc : c = stackColls s.states) (hq : ∀ p ∈ s.states, p.quiet = true)
    (hs : st = .plain) : wp (parseDocumentContent S n) (PosPost S a x c st) Any s := by
  subst hs
  unfold parseDocumentContent
  rw [wp_bind]
  apply pk_peek ht
  intro t s2 h2 ha2 _ f2 _
  split
  next =>
    rw [wp_bind]
    apply tp_popState
    intro q K hst
    have inv := posInv_pop (s' := ({ s2 with state := q, states := K } : PS σ)) (p := q) (K := K) (s := s) hc hq
      (by rw [← f2]; exact hst) rfl rfl
    exact pk_empty (h2.irrel rfl rfl) opensFirst_plain (by show Placed c _ [] s2.avail _ _; rw [ha2]; exact .missing)
      inv.colls inv.quiet inv.stage
  next => exact pk_parseNode ⟨h2, indicators_nil, opensFirst_plain, by rw [f2]; exact hc, by rw [f2]; exact hq⟩

theorem pk_documentEnd (ht : Took S a x [] s) (hc : c = stackColls s.states) (hq : ∀ p ∈ s.states, p.quiet = true)
    (hs : st = .plain) : wp (parseDocumentEnd S) (PosPost S a x c st) Any s := by
  subst hs
  unfold parseDocumentEnd
  rw [wp_bind]
  apply pk_peek ht
  intro t s2 h2 ha2 _ f2 _
  split
  next heq =>
    rw [wp_bind]
    refine pk_skip h2 ha2 ?_
    intro s3 h3 _ _ f3
    rw [wp_bind, wp_setTags, wp_bind, wp_setState, wp_pure]
    refine ⟨_, .plain, h3.irrel rfl rfl, .documentEndMarker heq, opensFirst_plain, ?_, ?_, rfl⟩
    · show c = stackColls s3.states
      rw [f3, f2]; exact hc
    · show ∀ p ∈ s3.states, _
      rw [f3, f2]; exact hq
  next =>
    rw [wp_bind, wp_setTags, wp_bind, wp_setState, wp_pure]
    refine ⟨_, .plain, h2.irrel rfl rfl, ?_, opensFirst_plain, ?_, ?_, rfl⟩
    · show Placed c _ [] s2.avail _ _
      rw [ha2]; exact .documentEnd
    · show c = stackColls s2.states
      rw [f2]; exact hc
    · show ∀ p ∈ s2.states, _
      rw [f2]; exact hq

theorem pk_streamStart (ht : Took S a x [] s) (hc : c = stackColls s.states) (hq : ∀ p ∈ s.states, p.quiet = true)
    (hs : st = .plain) : wp (parseStreamStart S) (PosPost S a x c st) Any s := by
  subst hs
  unfold parseStreamStart
  rw [wp_bind]
  apply pk_peek ht
  intro t s2 h2 ha2 _ f2 _
  split
  next enc heq =>
    rw [wp_bind, wp_setState, wp_bind]
    refine pk_skip (T := []) (h2.irrel rfl rfl) (by exact ha2) ?_
    intro s3 h3 _ e3 f3
    rw [wp_pure]
    refine ⟨_, .plain, h3, .streamStart heq, opensFirst_plain, ?_, ?_, ?_⟩
    · rw [e3, f3]
      show c = stackColls s2.states
      rw [f2]; exact hc
    · rw [f3]
      show ∀ p ∈ s2.states, _
      rw [f2]; exact hq
    · show s3.state.quiet = true
      rw [e3]; rfl
  next => exact wp_pfail trivial

/-- The stage in a state that is quiet and not inside a sequence without indentation. -/
theorem stage_plain (h : StageOk s st) (hk : s.state.quiet = true) (hn : s.state ≠ .indentlessSequenceEntry) : st = .plain := by
  cases st with
  | plain => rfl
  | opening =>
    rcases h with ⟨h1, _⟩ | ⟨h1, _⟩
    · unfold PState.quiet at hk; rw [h1] at hk; cases hk
    · exact absurd h1 hn
  | pair => have : s.state = _ := h; rw [this] at hk; cases hk
  | over => rw [h.1] at hk; cases hk

theorem stage_first (h : StageOk s st) (hf : s.state.isFirst = true) : Entering s st true := by
  cases st with
  | plain => have : s.state.quiet = true := h; unfold PState.quiet at this; rw [hf] at this; cases this
  | opening =>
    rcases h with ⟨_, h2⟩ | ⟨h1, _⟩
    · exact ⟨rfl, h2⟩
    · rw [h1] at hf; cases hf
  | pair => have : s.state = _ := h; rw [this] at hf; cases hf
  | over => rw [h.1] at hf; cases hf

/-- One call of the state machine. -/
theorem pk_stateMachine (fuel : Nat) (hi : PosInv c st s) : wp (stateMachine S n fuel) (PosPost S s.avail s.src c st) Any s := by
  have ht := took_start (S := S) s
  have hc := hi.colls
  have hq := hi.quiet
  have hs := hi.stage
  unfold wp stateMachine
  cases hst : s.state <;> rw [hst] at hc <;> simp only
  · exact pk_streamStart ht hc hq (stage_plain hs (by rw [hst]; rfl) (by rw [hst]; simp))
  · exact pk_documentStart fuel ht hc hq (stage_plain hs (by rw [hst]; rfl) (by rw [hst]; simp))
  · exact pk_documentStart fuel ht hc hq (stage_plain hs (by rw [hst]; rfl) (by rw [hst]; simp))
  · exact pk_documentContent ht hc hq (stage_plain hs (by rw [hst]; rfl) (by rw [hst]; simp))
  · exact pk_documentEnd ht hc hq (stage_plain hs (by rw [hst]; rfl) (by rw [hst]; simp))
  · have := stage_plain hs (by rw [hst]; rfl) (by rw [hst]; simp)
    subst this
    exact pk_parseNode ⟨ht, indicators_nil, opensFirst_plain, hc, hq⟩
  · exact pk_blockSequenceEntry ht (stage_first hs (by rw [hst]; rfl)) hc hq
  · exact pk_blockSequenceEntry (first := false) ht (stage_plain hs (by rw [hst]; rfl) (by rw [hst]; simp)) hc hq
  · refine pk_indentless ht ?_ hc hq
    cases st with
    | plain => exact .inr rfl
    | opening =>
      rcases hs with ⟨h1, _⟩ | ⟨_, h2⟩
      · rw [hst] at h1; cases h1
      · exact .inl ⟨rfl, h2⟩
    | pair => have : s.state = _ := hs; rw [hst] at this; cases this
    | over => have := hs.1; rw [hst] at this; cases this
  · exact pk_blockMappingKey ht (stage_first hs (by rw [hst]; rfl)) hc hq
  · exact pk_blockMappingKey (first := false) ht (stage_plain hs (by rw [hst]; rfl) (by rw [hst]; simp)) hc hq
  · exact pk_blockMappingValue ht (stage_plain hs (by rw [hst]; rfl) (by rw [hst]; simp)) hc hq
  · exact pk_flowSequenceEntry ht (stage_first hs (by rw [hst]; rfl)) hc hq
  · exact pk_flowSequenceEntry (first := false) ht (stage_plain hs (by rw [hst]; rfl) (by rw [hst]; simp)) hc hq
  · refine pk_fseKey ht ?_ hc hq
    cases st with
    | plain => have : s.state.quiet = true := hs; rw [hst] at this; cases this
    | opening =>
      rcases hs with ⟨h1, _⟩ | ⟨h1, _⟩
      · rw [hst] at h1; cases h1
      · rw [hst] at h1; cases h1
    | pair => rfl
    | over => have := hs.1; rw [hst] at this; cases this
  · exact pk_fseValue ht (stage_plain hs (by rw [hst]; rfl) (by rw [hst]; simp)) hc hq
  · exact pk_fseEnd ht (stage_plain hs (by rw [hst]; rfl) (by rw [hst]; simp)) hc hq
  · exact pk_flowMappingKey ht (stage_first hs (by rw [hst]; rfl)) hc hq
  · exact pk_flowMappingKey (first := false) ht (stage_plain hs (by rw [hst]; rfl) (by rw [hst]; simp)) hc hq
  · exact pk_flowMappingValue ht (stage_plain hs (by rw [hst]; rfl) (by rw [hst]; simp)) hc hq
  · exact pk_flowMappingValue ht (stage_plain hs (by rw [hst]; rfl) (by rw [hst]; simp)) hc hq
  · trivial

end states

end LibYaml
