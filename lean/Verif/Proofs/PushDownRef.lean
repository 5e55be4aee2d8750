import Verif.Proofs.PushDown

/-! Every state function of the parser does what the push-down automaton does. -/

namespace LibYaml

open Spec

variable {σ : Type} {S : TokSrc σ} {x : σ} {n : Int} {s : PS σ} {c : AC} {t : Token}

theorem ref_blockSeq (h : ARelN S x s c) : Ref S x n (parseBlockSequenceEntry S n false) s (ablockSeq (S.tok x) c) := by
  unfold parseBlockSequenceEntry enterCollection
  simp only [Bool.false_eq_true, if_false, pure_bind]
  apply rpeek h
  · intro hx; simp only [ablockSeq, hx]
  · intro t s1 h1 _
    have htok := h1.tok
    generalize hd : t.data = d at htok
    simp only [ablockSeq, htok]
    cases d with
    | blockEntry =>
      apply rskip h1
      intro s2 h2 _
      apply ref_opt h2
      · intro t3 s3 h3 hm
        rw [if_neg (by simp at hm ⊢; rcases hm with hm | hm <;> simp [hm])]
        exact rempty h3.toARelN rfl
      · intro t3 s3 h3 hm
        rw [if_pos (by simpa using hm)]
        exact ref_pushNode h3.toARelN
    | blockEnd => exact rpopMarkSkip h1 rfl
    | _ => exact rpopMark fun _ _ => rfail rfl

theorem ref_indentless (h : ARelN S x s c) : Ref S x n (parseIndentlessSequenceEntry S n) s (aindentless (S.tok x) c) := by
  unfold parseIndentlessSequenceEntry
  apply rpeek h
  · intro hx; simp only [aindentless, hx]
  · intro t s1 h1 _
    have htok := h1.tok
    generalize hd : t.data = d at htok
    simp only [aindentless, htok]
    cases d with
    | blockEntry =>
      rw [if_pos rfl]
      apply rskip h1
      intro s2 h2 _
      apply ref_opt h2
      · intro t3 s3 h3 hm
        rw [if_neg (by simp at hm ⊢; rcases hm with hm | hm | hm | hm <;> simp [hm])]
        exact rempty h3.toARelN rfl
      · intro t3 s3 h3 hm
        rw [if_pos (by simpa using hm)]
        exact ref_pushNode h3.toARelN
    | _ =>
      rw [if_neg (by simp)]
      exact rpopTo h1.toARelN rfl

theorem ref_blockKey (h : ARelN S x s c) : Ref S x n (parseBlockMappingKey S n false) s (ablockKey (S.tok x) c) := by
  unfold parseBlockMappingKey enterCollection
  simp only [Bool.false_eq_true, if_false, pure_bind]
  apply rpeek h
  · intro hx; simp only [ablockKey, hx]
  · intro t s1 h1 _
    have htok := h1.tok
    generalize hd : t.data = d at htok
    simp only [ablockKey, htok]
    cases d with
    | key =>
      apply rskip h1
      intro s2 h2 _
      apply ref_opt h2
      · intro t3 s3 h3 hm
        rw [if_neg (by simp at hm ⊢; rcases hm with hm | hm | hm <;> simp [hm])]
        exact rempty h3.toARelN rfl
      · intro t3 s3 h3 hm
        rw [if_pos (by simpa using hm)]
        exact ref_pushNode h3.toARelN
    | blockEnd => exact rpopMarkSkip h1 rfl
    | _ => exact rpopMark fun _ _ => rfail rfl

theorem ref_blockValue (h : ARelN S x s c) : Ref S x n (parseBlockMappingValue S n) s (ablockValue (S.tok x) c) := by
  unfold parseBlockMappingValue
  apply rpeek h
  · intro hx; simp only [ablockValue, hx]
  · intro t s1 h1 _
    have htok := h1.tok
    generalize hd : t.data = d at htok
    simp only [ablockValue, htok]
    cases d with
    | value =>
      rw [if_pos rfl]
      apply rskip h1
      intro s2 h2 _
      apply ref_opt h2
      · intro t3 s3 h3 hm
        rw [if_neg (by simp at hm ⊢; rcases hm with hm | hm | hm <;> simp [hm])]
        exact rempty h3.toARelN rfl
      · intro t3 s3 h3 hm
        rw [if_pos (by simpa using hm)]
        exact ref_pushNode h3.toARelN
    | _ =>
      rw [if_neg (by simp)]
      exact rempty h1.toARelN rfl

theorem ref_endFlow {d : EvData} (h : Live S x s c t) : Ref S x n (endFlow d t) s (c.next.pop d) := rpopMarkSkip h rfl

/-- The part of `parseFlowSequenceEntry` behind the separator. -/
theorem ref_flowItem (h : Live S x s c t) :
    Ref S x n (if t.data = .key then do
        setState .flowSequenceEntryMappingKey
        skipTok
        pure { data := .mappingStart none none true .flow, start := t.start, stop := t.stop }
      else if t.data ≠ .flowSequenceEnd then do
        pushState .flowSequenceEntry
        parseNode S n false false
      else endFlow .sequenceEnd t) s (aflowItem (S.tok x) c) := by
  have htok := h.tok
  generalize hd : t.data = d at htok
  simp only [aflowItem, htok]
  cases d with
  | key =>
    rw [if_pos rfl]
    apply rset
    have h' : Live S x { s with state := .flowSequenceEntryMappingKey } { c with st := .flowSequenceEntryMappingKey } t :=
      ⟨⟨h.at_, h.stk, h.tags⟩, h.avail, h.tok⟩
    apply rskip h'
    intro s2 h2 e2
    exact rdone h2 rfl e2
  | flowSequenceEnd =>
    rw [if_neg (by simp), if_neg (by simp)]
    exact ref_endFlow h
  | _ =>
    rw [if_neg (by simp), if_pos (by simp)]
    exact ref_pushNode h.toARelN

theorem ref_flowSeqFirst (h : ARelN S x s c) : Ref S x n (do
      let token ← peek S
      if token.data ≠ .flowSequenceEnd then
        let token ← flowSeparator S true token "while parsing a flow sequence" "did not find expected ',' or ']'"
        if token.data = .key then
          setState .flowSequenceEntryMappingKey
          skipTok
          pure { data := .mappingStart none none true .flow, start := token.start, stop := token.stop }
        else if token.data ≠ .flowSequenceEnd then
          pushState .flowSequenceEntry
          parseNode S n false false
        else endFlow .sequenceEnd token
      else endFlow .sequenceEnd token) s (aflowItem (S.tok x) c) := by
  apply rpeek h
  · intro hx; simp only [aflowItem, hx]
  · intro t s1 h1 _
    by_cases hd : t.data = .flowSequenceEnd
    · rw [if_neg (by simpa using hd)]
      have htok := h1.tok
      rw [hd] at htok
      simp only [aflowItem, htok]
      exact ref_endFlow h1
    · rw [if_pos hd]
      unfold flowSeparator
      simp only [if_true, pure_bind]
      exact ref_flowItem h1

theorem ref_flowSeq (h : ARelN S x s c) : Ref S x n (parseFlowSequenceEntry S n false) s (aflowSeq (S.tok x) c) := by
  unfold parseFlowSequenceEntry enterCollection
  simp only [Bool.false_eq_true, if_false, pure_bind]
  apply rpeek h
  · intro hx; simp only [aflowSeq, hx]
  · intro t s1 h1 _
    have htok := h1.tok
    generalize hd : t.data = d at htok
    simp only [aflowSeq, htok, flowSeparator]
    cases d with
    | flowSequenceEnd => rw [if_neg (by simp)]; exact ref_endFlow h1
    | flowEntry =>
      rw [if_pos (by simp)]
      simp only [Bool.false_eq_true, if_false, hd, if_true]
      simp only [bind_assoc]
      apply rskip h1
      intro s2 h2 _
      apply rpeek h2
      · intro hx; simp only [aflowItem, hx]
      · intro t3 s3 h3 _
        exact ref_flowItem h3
    | _ =>
      rw [if_pos (by simp)]
      simp only [Bool.false_eq_true, if_false, hd]
      rw [if_neg (by simp)]
      simp only [bind_assoc]
      exact rpopMark fun _ _ => rfail rfl

theorem ref_pairKey (h : ARelN S x s c) : Ref S x n (parseFlowSequenceEntryMappingKey S n) s (apairKey (S.tok x) c) := by
  unfold parseFlowSequenceEntryMappingKey
  apply rpeek h
  · intro hx; simp only [apairKey, hx]
  · intro t s1 h1 _
    have htok := h1.tok
    generalize hd : t.data = d at htok
    simp only [apairKey, htok]
    cases d with
    | flowSequenceEnd => rw [if_neg (by simp), if_pos rfl]; exact rempty h1.toARelN rfl
    | value =>
      rw [if_neg (by simp), if_neg (by simp)]
      apply rskip h1
      intro s2 h2 _
      exact rempty h2 rfl
    | flowEntry =>
      rw [if_neg (by simp), if_neg (by simp)]
      apply rskip h1
      intro s2 h2 _
      exact rempty h2 rfl
    | _ => rw [if_pos (by simp)]; exact ref_pushNode h1.toARelN

theorem ref_pairValue (h : ARelN S x s c) : Ref S x n (parseFlowSequenceEntryMappingValue S n) s (apairValue (S.tok x) c) := by
  unfold parseFlowSequenceEntryMappingValue
  apply rpeek h
  · intro hx; simp only [apairValue, hx]
  · intro t s1 h1 _
    have htok := h1.tok
    generalize hd : t.data = d at htok
    simp only [apairValue, htok]
    cases d with
    | value =>
      rw [if_pos rfl]
      apply rskip h1
      intro s2 h2 _
      apply ref_opt h2
      · intro t3 s3 h3 hm
        rw [if_neg (by simp at hm ⊢; rcases hm with hm | hm <;> simp [hm])]
        exact rempty h3.toARelN rfl
      · intro t3 s3 h3 hm
        rw [if_pos (by simpa using hm)]
        exact ref_pushNode h3.toARelN
    | _ => rw [if_neg (by simp)]; exact rempty h1.toARelN rfl

theorem ref_pairEnd (h : ARelN S x s c) : Ref S x n (parseFlowSequenceEntryMappingEnd S) s (apairEnd (S.tok x) c) := by
  unfold parseFlowSequenceEntryMappingEnd
  apply rpeek h
  · intro hx; simp only [apairEnd, hx]
  · intro t s1 h1 _
    simp only [apairEnd, h1.tok]
    exact rto h1.toARelN rfl

theorem ref_flowPair (h : Live S x s c t) :
    Ref S x n (if t.data = .key then do
        skipTok
        let t2 ← peek S
        if t2.data ≠ .value ∧ t2.data ≠ .flowEntry ∧ t2.data ≠ .flowMappingEnd then
          pushState .flowMappingValue
          parseNode S n false false
        else
          setState .flowMappingValue
          emptyScalar t2.start
      else if t.data ≠ .flowMappingEnd then do
        pushState .flowMappingEmptyValue
        parseNode S n false false
      else endFlow .mappingEnd t) s (aflowPair (S.tok x) c) := by
  have htok := h.tok
  generalize hd : t.data = d at htok
  simp only [aflowPair, htok]
  cases d with
  | key =>
    rw [if_pos rfl]
    apply rskip h
    intro s2 h2 _
    apply ref_opt h2
    · intro t3 s3 h3 hm
      rw [if_neg (by simp at hm ⊢; rcases hm with hm | hm | hm <;> simp [hm])]
      exact rempty h3.toARelN rfl
    · intro t3 s3 h3 hm
      rw [if_pos (by simpa using hm)]
      exact ref_pushNode h3.toARelN
  | flowMappingEnd =>
    rw [if_neg (by simp), if_neg (by simp)]
    exact ref_endFlow h
  | _ =>
    rw [if_neg (by simp), if_pos (by simp)]
    exact ref_pushNode h.toARelN

theorem ref_flowMapFirst (h : ARelN S x s c) : Ref S x n (do
      let token ← peek S
      if token.data ≠ .flowMappingEnd then
        let token ← flowSeparator S true token "while parsing a flow mapping" "did not find expected ',' or '}'"
        if token.data = .key then
          skipTok
          let t2 ← peek S
          if t2.data ≠ .value ∧ t2.data ≠ .flowEntry ∧ t2.data ≠ .flowMappingEnd then
            pushState .flowMappingValue
            parseNode S n false false
          else
            setState .flowMappingValue
            emptyScalar t2.start
        else if token.data ≠ .flowMappingEnd then
          pushState .flowMappingEmptyValue
          parseNode S n false false
        else endFlow .mappingEnd token
      else endFlow .mappingEnd token) s (aflowPair (S.tok x) c) := by
  apply rpeek h
  · intro hx; simp only [aflowPair, hx]
  · intro t s1 h1 _
    by_cases hd : t.data = .flowMappingEnd
    · rw [if_neg (by simpa using hd)]
      have htok := h1.tok
      rw [hd] at htok
      simp only [aflowPair, htok]
      exact ref_endFlow h1
    · rw [if_pos hd]
      unfold flowSeparator
      simp only [if_true, pure_bind]
      exact ref_flowPair h1

theorem ref_flowMap (h : ARelN S x s c) : Ref S x n (parseFlowMappingKey S n false) s (aflowMap (S.tok x) c) := by
  unfold parseFlowMappingKey enterCollection
  simp only [Bool.false_eq_true, if_false, pure_bind]
  apply rpeek h
  · intro hx; simp only [aflowMap, hx]
  · intro t s1 h1 _
    have htok := h1.tok
    generalize hd : t.data = d at htok
    simp only [aflowMap, htok, flowSeparator]
    cases d with
    | flowMappingEnd => rw [if_neg (by simp)]; exact ref_endFlow h1
    | flowEntry =>
      rw [if_pos (by simp)]
      simp only [Bool.false_eq_true, if_false, hd, if_true]
      simp only [bind_assoc]
      apply rskip h1
      intro s2 h2 _
      apply rpeek h2
      · intro hx; simp only [aflowPair, hx]
      · intro t3 s3 h3 _
        exact ref_flowPair h3
    | _ =>
      rw [if_pos (by simp)]
      simp only [Bool.false_eq_true, if_false, hd]
      rw [if_neg (by simp)]
      simp only [bind_assoc]
      exact rpopMark fun _ _ => rfail rfl

theorem ref_flowValue (h : ARelN S x s c) : Ref S x n (parseFlowMappingValue S n false) s (aflowValue (S.tok x) c) := by
  unfold parseFlowMappingValue
  simp only [Bool.false_eq_true, if_false]
  apply rpeek h
  · intro hx; simp only [aflowValue, hx]
  · intro t s1 h1 _
    have htok := h1.tok
    generalize hd : t.data = d at htok
    simp only [aflowValue, htok]
    cases d with
    | value =>
      rw [if_pos rfl]
      apply rskip h1
      intro s2 h2 _
      apply ref_opt h2
      · intro t3 s3 h3 hm
        rw [if_neg (by simp at hm ⊢; rcases hm with hm | hm <;> simp [hm])]
        exact rempty h3.toARelN rfl
      · intro t3 s3 h3 hm
        rw [if_pos (by simpa using hm)]
        exact ref_pushNode h3.toARelN
    | _ => rw [if_neg (by simp)]; exact rempty h1.toARelN rfl

theorem ref_flowEmpty (h : ARelN S x s c) : Ref S x n (parseFlowMappingValue S n true) s (aflowEmpty (S.tok x) c) := by
  unfold parseFlowMappingValue
  simp only [if_true]
  apply rpeek h
  · intro hx; simp only [aflowEmpty, hx]
  · intro t s1 h1 _
    simp only [aflowEmpty, h1.tok]
    exact rempty h1.toARelN rfl

/-- Entering a collection: the token that opens it is passed. -/
theorem ref_enter {k : Unit → PM σ Event} {g : AC → AOut} (h : ARelN S x s c)
    (hk : ∀ s', ARelN S x s' c.next → Ref S x n (k ()) s' (g c.next)) :
    Ref S x n (enterCollection S true >>= k) s (if S.tok x c.pos = none then none else g c.next) := by
  unfold enterCollection
  simp only [if_true, bind_assoc]
  unfold Ref
  rw [wp_bind]
  unfold wp peekUnchecked
  have hp := @wpeek σ S x s c Token (fun t => pure t) (fun t s' => Live S x s' c t)
    (fun _ => S.tok x c.pos = none) h (fun hx _ => hx) (fun t s' hl _ => hl)
  rw [bind_pure] at hp
  cases hm : peek S s with
  | error e => exact .inr (.inl rfl)
  | ok r =>
    obtain ⟨t, s1⟩ := r
    have hl := wp_ok hp hm
    simp only
    rw [if_neg (by rw [hl.tok]; simp)]
    show Ref S x n (pushMark t.start >>= fun _ => skipTok >>= fun _ => k ()) s1 (g c.next)
    apply rpushMark
    have hl' : Live S x { s1 with marks := t.start :: s1.marks } c t := ⟨⟨hl.at_, hl.stk, hl.tags⟩, hl.avail, hl.tok⟩
    apply rskip hl'
    intro s2 h2 _
    exact hk s2 h2

/-! ### Documents -/

theorem ref_appendTag {d : TagDir} {m : Mark} {Q : Unit → PS σ → Prop} {E : Fail → Prop}
    (h : Q () { s with tags := addHandle d s.tags }) : wp (appendTagM d true m) Q E s := by
  unfold appendTagM
  rw [wp_bind, wp_getTags]
  unfold appendTag addHandle at *
  by_cases hc : s.tags.any (fun e => e.handle == d.handle) = true
  · rw [if_pos hc] at h ⊢; exact h
  · rw [if_neg hc] at h ⊢; exact h

theorem ref_dirs (fuel : Nat) {v : Option Version} {ts : List TagDir} {Q : Option Version × List TagDir → PS σ → Prop}
    {E : Fail → Prop} {s : PS σ} {c : AC} (h : ARelN S x s c)
    (hn : adirs (S.tok x) fuel v ts c.tags c.pos = none → ∀ e, E e)
    (hQ : ∀ v' ts' tbl k s' t, adirs (S.tok x) fuel v ts c.tags c.pos = some (v', ts', tbl, k) →
      Live S x s' { c with tags := tbl, pos := k } t → s'.state = s.state → Q (v', ts') s') :
    wp (directivesLoop S fuel v ts) Q E s := by
  induction fuel generalizing v ts s c with
  | zero => exact hn rfl _
  | succ fuel ih =>
    unfold directivesLoop
    apply wpeek h
    · intro hx; exact hn (by simp only [adirs, hx])
    · intro t s1 h1 e1
      have htok := h1.tok
      generalize hd : t.data = d at htok
      cases d with
      | versionDirective w =>
        simp only [adirs, htok] at hn hQ
        by_cases hv : v.isSome = true
        · simp only [hv, if_true] at hn ⊢; exact hn trivial _
        · simp only [hv, Bool.false_eq_true, if_false] at hn hQ ⊢
          by_cases hw : w.major ≠ 1 ∨ (w.minor ≠ 1 ∧ w.minor ≠ 2)
          · rw [if_pos hw]; exact hn (if_pos hw) _
          · rw [if_neg hw] at hn ⊢
            simp only [if_neg hw] at hQ
            apply wskip h1
            intro s2 h2 e2
            exact ih h2 hn (fun v' ts' tbl k s' t hh hl he => hQ v' ts' tbl k s' t hh hl (by rw [he, e2, e1]))
      | tagDirective d =>
        simp only [adirs, htok] at hn hQ
        rw [wp_bind]
        unfold appendTagM
        rw [wp_bind, wp_getTags, h1.tags]
        unfold appendTag
        by_cases hc : c.tags.any (fun e => e.handle == d.handle) = true
        · simp only [hc, if_true] at hn ⊢; exact hn trivial _
        · rw [if_neg hc] at hn ⊢
          simp only [if_neg hc] at hQ
          show wp (skipTok >>= fun _ => directivesLoop S fuel v (ts ++ [d])) Q E { s1 with tags := c.tags ++ [d] }
          have h1' : Live S x { s1 with tags := c.tags ++ [d] } { c with tags := c.tags ++ [d] } t :=
            ⟨⟨h1.at_, h1.stk, rfl⟩, h1.avail, h1.tok⟩
          apply wskip h1'
          intro s2 h2 e2
          exact ih h2 hn (fun v' ts' tbl k s' t hh hl he => hQ v' ts' tbl k s' t hh hl (by rw [he, e2, ← e1]))
      | _ =>
        rw [wp_pure]
        exact hQ _ _ _ c.pos s1 t (by simp only [adirs, htok]) h1 e1

theorem ref_process (fuel : Nat) {Q : Option Version × List TagDir → PS σ → Prop} {E : Fail → Prop} (h : ARelN S x s c)
    (hn : adirs (S.tok x) fuel none [] c.tags c.pos = none → ∀ e, E e)
    (hQ : ∀ v' ts' tbl k s' t, adirs (S.tok x) fuel none [] c.tags c.pos = some (v', ts', tbl, k) →
      Live S x s' { c with tags := addPredeclared tbl, pos := k } t → s'.state = s.state → Q (v', ts') s') :
    wp (processDirectives S fuel) Q E s := by
  unfold processDirectives
  rw [wp_bind]
  apply ref_dirs fuel h hn
  intro v' ts' tbl k s1 t1 hd h1 e1
  apply wpeek h1.toARelN
  · intro hx; rw [h1.tok] at hx; cases hx
  · intro t2 s2 h2 e2
    rw [wp_bind]
    apply ref_appendTag
    rw [wp_bind]
    apply ref_appendTag
    rw [wp_pure]
    refine hQ _ _ _ _ _ t2 hd ⟨⟨h2.at_, h2.stk, ?_⟩, h2.avail, h2.tok⟩ (by show s2.state = s.state; rw [e2, e1])
    show addHandle _ (addHandle _ s2.tags) = _
    rw [h2.tags]; rfl

theorem ref_skipEnds (fuel : Nat) {Q : Unit → PS σ → Prop} {E : Fail → Prop} {s : PS σ} {c : AC} (h : ARelN S x s c)
    (hn : askip (S.tok x) fuel c.pos = none → ∀ e, E e)
    (hQ : ∀ k s', askip (S.tok x) fuel c.pos = some k → ARelN S x s' { c with pos := k } → Q () s') :
    wp (skipDocumentEnds S fuel) Q E s := by
  induction fuel generalizing s c with
  | zero => exact hn rfl _
  | succ fuel ih =>
    unfold skipDocumentEnds
    apply wpeek h
    · intro hx; exact hn (by simp only [askip, hx])
    · intro t s1 h1 e1
      have htok := h1.tok
      generalize hd : t.data = d at htok
      cases d with
      | documentEnd =>
        simp only [askip, htok] at hn hQ
        apply wskip h1
        intro s2 h2 e2
        exact ih h2 hn (fun k s' hh hr => hQ k s' hh hr)
      | _ =>
        rw [wp_pure]
        exact hQ c.pos s1 (by simp only [askip, htok]) h1.toARelN

theorem ref_explicit (fuel : Nat) (h : Live S x s c t) : Ref S x n (if t.data ≠ .streamEnd then do
      let (version, tags) ← processDirectives S fuel
      let token ← peek S
      if token.data = .documentStart then
        pushState .documentEnd
        setState .documentContent
        skipTok
        pure { data := .documentStart version tags false, start := t.start, stop := token.stop }
      else perr "did not find expected <document start>" token.start
    else do
      setState .done
      skipTok
      pure { data := .streamEnd, start := t.start, stop := t.stop }) s (aexplicit (S.tok x) fuel c) := by
  have htok := h.tok
  generalize hd : t.data = d at htok
  by_cases he : d = .streamEnd
  · subst he
    rw [if_neg (by simp)]
    simp only [aexplicit, htok]
    apply rset
    have h' : Live S x { s with state := .done } { c with st := .done } t := ⟨⟨h.at_, h.stk, h.tags⟩, h.avail, h.tok⟩
    apply rskip h'
    intro s2 h2 e2
    exact rdone h2 rfl e2
  · rw [if_pos he]
    have e : aexplicit (S.tok x) fuel c = (match adirs (S.tok x) fuel none [] c.tags c.pos with
        | none => none
        | some (v, ts, tbl, k) =>
          if S.tok x k = some .documentStart then
            some (.documentStart v ts false,
              { st := .documentContent, stk := .documentEnd :: c.stk, pos := k + 1, tags := addPredeclared tbl })
          else none) := by
      unfold aexplicit
      rw [htok]
      cases d <;> first | rfl | exact absurd rfl he
    rw [e]
    unfold Ref
    rw [wp_bind]
    apply ref_process fuel h.toARelN
    · intro hx err; rw [hx]; exact .inl rfl
    · intro v ts tbl k s1 t1 hds h1 e1
      rw [hds]
      apply rpeek h1.toARelN
      · intro hx; rw [h1.tok] at hx; cases hx
      · intro t2 s2 h2 e2
        have hk : S.tok x k = some t2.data := h2.tok
        simp only [hk, Option.some.injEq]
        by_cases hs : t2.data = .documentStart
        · rw [if_pos hs, if_pos hs]
          apply rpush
          apply rset
          have h' : Live S x { s2 with states := .documentEnd :: s2.states, state := .documentContent }
              { st := .documentContent, stk := .documentEnd :: c.stk, pos := k, tags := addPredeclared tbl } t2 :=
            ⟨⟨h2.at_, by show _ :: s2.states = _; rw [h2.stk], h2.tags⟩, h2.avail, h2.tok⟩
          apply rskip h'
          intro s3 h3 e3
          exact rdone h3 rfl e3
        · rw [if_neg hs, if_neg hs]
          exact rfail rfl

theorem ref_implicitStart (fuel : Nat) (h : ARelN S x s c) (hc : c.st = .implicitDocumentStart) :
    Ref S x n (parseDocumentStart S fuel true) s (astep (S.tok x) fuel c) := by
  unfold parseDocumentStart astep
  rw [hc]
  simp only [Bool.not_true, Bool.false_eq_true, if_false, Bool.true_and]
  apply rpeek h
  · intro hx; simp only [hx]
  · intro t s1 h1 e1
    have htok := h1.tok
    generalize hd : t.data = d at htok
    simp only [htok]
    by_cases hs : d.startsDocument = true
    · simp only [hs, Bool.not_true, Bool.false_eq_true, if_false, if_true]
      have := ref_explicit (n := n) fuel h1
      rw [hd] at this
      exact this
    · simp only [hs, Bool.not_false, Bool.false_eq_true, if_false, if_true]
      have hdirs : adirs (S.tok x) fuel none [] c.tags c.pos = if fuel = 0 then none else some (none, [], c.tags, c.pos) := by
        cases fuel with
        | zero => rfl
        | succ fuel =>
          simp only [adirs, htok]
          cases d <;> simp [TokData.startsDocument] at hs ⊢
      unfold Ref
      rw [wp_bind]
      apply ref_process fuel h1.toARelN
      · intro hx err
        rw [hdirs] at hx
        by_cases h0 : fuel = 0
        · exact .inl (by rw [if_pos h0])
        · rw [if_neg h0] at hx; cases hx
      · intro v ts tbl k s2 t2 hds h2 e2
        rw [hdirs] at hds
        by_cases h0 : fuel = 0
        · rw [if_pos h0] at hds; cases hds
        · rw [if_neg h0] at hds
          cases hds
          rw [if_neg h0]
          apply rpush
          apply rset
          exact rdone (c := { c with st := .blockNode, stk := .documentEnd :: c.stk, tags := addPredeclared c.tags })
            ⟨h2.at_, by show _ :: s2.states = _; rw [h2.stk], h2.tags⟩ rfl rfl

theorem ref_documentStart (fuel : Nat) (h : ARelN S x s c) (hc : c.st = .documentStart) :
    Ref S x n (parseDocumentStart S fuel false) s (astep (S.tok x) fuel c) := by
  unfold parseDocumentStart astep
  rw [hc]
  simp only [Bool.not_false, Bool.false_eq_true, if_false, if_true, Bool.false_and]
  unfold Ref
  rw [wp_bind]
  apply ref_skipEnds fuel h
  · intro hx err; rw [hx]; exact .inl rfl
  · intro k s1 hk h1
    simp only [hk]
    apply rpeek h1
    · intro hx
      unfold aexplicit
      rw [hx]
    · intro t s2 h2 e2
      exact ref_explicit fuel ⟨⟨h2.at_, h2.stk, h2.tags⟩, h2.avail, h2.tok⟩

/-- The parser behaves like the automaton. -/
theorem ref_stateMachine (n : Int) (fuel : Nat) (h : ARel S x s c) : Ref S x n (stateMachine S n fuel) s (astep (S.tok x) fuel c) := by
  have hst := h.st
  have hN := h.toARelN
  have red : ∀ {m : PM σ Event} {r : AOut}, stateMachine S n fuel s = m s → Ref S x n m s r →
      Ref S x n (stateMachine S n fuel) s r := by
    intro m r he hr
    unfold Ref wp at hr ⊢
    rw [he]; exact hr
  cases hc : c.st with
  | streamStart =>
    refine red (m := parseStreamStart S) (by unfold stateMachine; rw [hst, hc]) ?_
    unfold parseStreamStart astep
    rw [hc]
    apply rpeek hN
    · intro hx; simp only [hx]
    · intro t s1 h1 _
      have htok := h1.tok
      generalize hd : t.data = d at htok
      simp only [htok]
      cases d with
      | streamStart enc =>
        apply rset
        have h' : Live S x { s1 with state := .implicitDocumentStart } { c with st := .implicitDocumentStart } t :=
          ⟨⟨h1.at_, h1.stk, h1.tags⟩, h1.avail, h1.tok⟩
        apply rskip h'
        intro s2 h2 e2
        exact rdone h2 rfl e2
      | _ => exact rfail rfl
  | implicitDocumentStart =>
    exact red (m := parseDocumentStart S fuel true) (by unfold stateMachine; rw [hst, hc]) (ref_implicitStart fuel hN hc)
  | documentStart =>
    exact red (m := parseDocumentStart S fuel false) (by unfold stateMachine; rw [hst, hc]) (ref_documentStart fuel hN hc)
  | documentContent =>
    refine red (m := parseDocumentContent S n) (by unfold stateMachine; rw [hst, hc]) ?_
    unfold parseDocumentContent astep
    rw [hc]
    apply rpeek hN
    · intro hx; simp only [hx]
    · intro t s1 h1 _
      simp only [h1.tok]
      split
      · exact rpopTo h1.toARelN rfl
      · exact ref_node h1.toARelN
  | documentEnd =>
    refine red (m := parseDocumentEnd S) (by unfold stateMachine; rw [hst, hc]) ?_
    unfold parseDocumentEnd astep adocEnd
    rw [hc]
    apply rpeek hN
    · intro hx; simp only [hx]
    · intro t s1 h1 _
      have htok := h1.tok
      generalize hd : t.data = d at htok
      simp only [htok]
      cases d with
      | documentEnd =>
        rw [if_pos rfl]
        apply rskip h1
        intro s2 h2 e2
        exact rdone (n := n) (s := { s2 with tags := [], state := .documentStart })
          (c := { c with st := .documentStart, pos := c.pos + 1, tags := [] }) ⟨h2.at_, h2.stk, rfl⟩ rfl rfl
      | _ =>
        rw [if_neg (by simp)]
        exact rdone (n := n) (s := { s1 with tags := [], state := .documentStart })
          (c := { c with st := .documentStart, tags := [] }) ⟨h1.at_, h1.stk, rfl⟩ rfl rfl
  | blockNode =>
    refine red (m := parseNode S n true false) (by unfold stateMachine; rw [hst, hc]) ?_
    unfold astep; rw [hc]; exact ref_node hN
  | blockSequenceFirstEntry =>
    refine red (m := parseBlockSequenceEntry S n true) (by unfold stateMachine; rw [hst, hc]) ?_
    unfold astep; rw [hc]
    refine ref_enter (g := ablockSeq (S.tok x)) hN ?_
    intro s' h'
    have := ref_blockSeq (n := n) h'
    unfold parseBlockSequenceEntry enterCollection at this
    simp only [Bool.false_eq_true, if_false, pure_bind] at this
    exact this
  | blockSequenceEntry =>
    refine red (m := parseBlockSequenceEntry S n false) (by unfold stateMachine; rw [hst, hc]) ?_
    unfold astep; rw [hc]; exact ref_blockSeq hN
  | indentlessSequenceEntry =>
    refine red (m := parseIndentlessSequenceEntry S n) (by unfold stateMachine; rw [hst, hc]) ?_
    unfold astep; rw [hc]; exact ref_indentless hN
  | blockMappingFirstKey =>
    refine red (m := parseBlockMappingKey S n true) (by unfold stateMachine; rw [hst, hc]) ?_
    unfold astep; rw [hc]
    refine ref_enter (g := ablockKey (S.tok x)) hN ?_
    intro s' h'
    have := ref_blockKey (n := n) h'
    unfold parseBlockMappingKey enterCollection at this
    simp only [Bool.false_eq_true, if_false, pure_bind] at this
    exact this
  | blockMappingKey =>
    refine red (m := parseBlockMappingKey S n false) (by unfold stateMachine; rw [hst, hc]) ?_
    unfold astep; rw [hc]; exact ref_blockKey hN
  | blockMappingValue =>
    refine red (m := parseBlockMappingValue S n) (by unfold stateMachine; rw [hst, hc]) ?_
    unfold astep; rw [hc]; exact ref_blockValue hN
  | flowSequenceFirstEntry =>
    refine red (m := parseFlowSequenceEntry S n true) (by unfold stateMachine; rw [hst, hc]) ?_
    unfold astep; rw [hc]
    refine ref_enter (g := aflowItem (S.tok x)) hN ?_
    intro s' h'
    exact ref_flowSeqFirst h'
  | flowSequenceEntry =>
    refine red (m := parseFlowSequenceEntry S n false) (by unfold stateMachine; rw [hst, hc]) ?_
    unfold astep; rw [hc]; exact ref_flowSeq hN
  | flowSequenceEntryMappingKey =>
    refine red (m := parseFlowSequenceEntryMappingKey S n) (by unfold stateMachine; rw [hst, hc]) ?_
    unfold astep; rw [hc]; exact ref_pairKey hN
  | flowSequenceEntryMappingValue =>
    refine red (m := parseFlowSequenceEntryMappingValue S n) (by unfold stateMachine; rw [hst, hc]) ?_
    unfold astep; rw [hc]; exact ref_pairValue hN
  | flowSequenceEntryMappingEnd =>
    refine red (m := parseFlowSequenceEntryMappingEnd S) (by unfold stateMachine; rw [hst, hc]) ?_
    unfold astep; rw [hc]; exact ref_pairEnd hN
  | flowMappingFirstKey =>
    refine red (m := parseFlowMappingKey S n true) (by unfold stateMachine; rw [hst, hc]) ?_
    unfold astep; rw [hc]
    refine ref_enter (g := aflowPair (S.tok x)) hN ?_
    intro s' h'
    exact ref_flowMapFirst h'
  | flowMappingKey =>
    refine red (m := parseFlowMappingKey S n false) (by unfold stateMachine; rw [hst, hc]) ?_
    unfold astep; rw [hc]; exact ref_flowMap hN
  | flowMappingValue =>
    refine red (m := parseFlowMappingValue S n false) (by unfold stateMachine; rw [hst, hc]) ?_
    unfold astep; rw [hc]; exact ref_flowValue hN
  | flowMappingEmptyValue =>
    refine red (m := parseFlowMappingValue S n true) (by unfold stateMachine; rw [hst, hc]) ?_
    unfold astep; rw [hc]; exact ref_flowEmpty hN
  | done =>
    refine red (m := pfail .ub) (by unfold stateMachine; rw [hst, hc]; rfl) ?_
    exact .inr (.inl rfl)

end LibYaml
