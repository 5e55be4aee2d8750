import Verif.Model.Parser
import Verif.Spec.Tags
import Verif.Proofs.Parser

/-! The parser's directive table and tags against the walk over the consumed tokens. -/

namespace LibYaml

open Spec

variable {σ : Type}

/-- The source gives the tokens `ts` one after the other. -/
inductive Feeds (S : TokSrc σ) : σ → List Token → σ → Prop
  | nil (x) : Feeds S x [] x
  | snoc {x ts y t z} : Feeds S x ts y → S.next y = .ok (t, z) → Feeds S x (ts ++ [t]) z

theorem Walk.run_append (w : Walk) (a b : List TokData) : w.run (a ++ b) = (w.run a).bind fun w => w.run b := by
  induction a generalizing w with
  | nil => rfl
  | cons t a ih =>
    simp only [List.cons_append, Walk.run]
    cases w.step t with
    | none => rfl
    | some w => exact ih w

/-- The tokens consumed so far are `c`, and the walk over them is in state `w`. -/
structure Mid (S : TokSrc σ) (x0 : σ) (s : PS σ) (c : List Token) (w : Walk) : Prop where
  fed : Feeds S x0 (c ++ s.avail.toList) s.src
  run : ({} : Walk).run (c.map Token.data) = some w

theorem mid_irrel {S : TokSrc σ} {x0 : σ} {s s' : PS σ} {c : List Token} {w : Walk} (h : Mid S x0 s c w)
    (h1 : s'.avail = s.avail) (h2 : s'.src = s.src) : Mid S x0 s' c w := ⟨by rw [h1, h2]; exact h.fed, h.run⟩

theorem mid_skip {S : TokSrc σ} {x0 : σ} {s s' : PS σ} {c : List Token} {w w' : Walk} {t : Token} (h : Mid S x0 s c w)
    (ha : s.avail = some t) (h1 : s'.avail = none) (h2 : s'.src = s.src) (hw : w.step t.data = some w') :
    Mid S x0 s' (c ++ [t]) w' := by
  refine ⟨?_, ?_⟩
  · have := h.fed; rw [ha] at this; rw [h1, h2]; simpa using this
  · rw [List.map_append, Walk.run_append, h.run]
    simp [Walk.run, hw]

/-- Anything may fail. -/
def Any : Fail → Prop := fun _ => True

section rules
variable {S : TokSrc σ} {x0 : σ} {s : PS σ}

theorem tp_peek {c : List Token} {w : Walk} {Q : Token → PS σ → Prop} (hm : Mid S x0 s c w)
    (h : ∀ t s', Mid S x0 s' c w → s'.avail = some t → s' = { s with avail := some t, src := s'.src } → Q t s') :
    wp (peek S) Q Any s := by
  unfold wp peek
  cases ha : s.avail with
  | some t => exact h t s hm ha (by rw [← ha])
  | none =>
    simp only
    cases hn : S.next s.src with
    | error e => trivial
    | ok p =>
      refine h _ _ ⟨?_, hm.run⟩ rfl rfl
      have := hm.fed
      rw [ha] at this
      simp only [Option.toList_none, List.append_nil] at this
      exact .snoc this hn

theorem tp_peekUnchecked {c : List Token} {w : Walk} {Q : Token → PS σ → Prop} (hm : Mid S x0 s c w) (t : Token)
    (ha : s.avail = some t) (h : Q t s) : wp (peekUnchecked S) Q Any s := by
  unfold wp peekUnchecked peek; rw [ha]; exact h

theorem tp_skip {c : List Token} {w w' : Walk} {Q : Unit → PS σ → Prop} {t : Token} (hm : Mid S x0 s c w)
    (ha : s.avail = some t) (hw : w.step t.data = some w')
    (h : ∀ s', Mid S x0 s' (c ++ [t]) w' → s' = { s with avail := s'.avail, ended := s'.ended } → Q () s') :
    wp skipTok Q Any s := by
  unfold wp skipTok; rw [ha]
  exact h _ (mid_skip hm ha rfl rfl hw) rfl

theorem tp_popState {Q : Unit → PS σ → Prop}
    (h : ∀ st K, s.states = st :: K → Q () { s with state := st, states := K }) : wp popState Q Any s := by
  unfold wp popState
  cases hs : s.states with
  | nil => trivial
  | cons st K => exact h st K hs

theorem tp_popMark {Q : Mark → PS σ → Prop} (h : ∀ m ms, Q m { s with marks := ms }) : wp popMark Q Any s := by
  unfold wp popMark
  cases s.marks with
  | nil => trivial
  | cons m ms => exact h m ms

end rules

/-- States inside a document. -/
def PState.inDoc : PState → Bool
  | .streamStart | .implicitDocumentStart | .documentStart | .done => false
  | _ => true

/-- Tokens that mean nothing to directives and tags. -/
def TokData.neutral : TokData → Bool
  | .versionDirective _ | .tagDirective _ | .documentStart | .documentEnd | .tag .. => false
  | _ => true

theorem step_neutral {d : TokData} (w : Walk) (h : d.neutral = true) : w.step d = some w := by
  cases d <;> simp_all [TokData.neutral, Walk.step]

/-- The parser's table for the declared directives. -/
def table (declared : List TagDir) : List TagDir :=
  declared ++ predeclared.filter fun p => !declared.any fun d => d.handle == p.handle

theorem find_table (declared : List TagDir) (handle : Text) :
    (table declared).find? (fun d => d.handle == handle) =
      (declared ++ predeclared).find? (fun d => d.handle == handle) := by
  unfold table
  rw [List.find?_append, List.find?_append]
  cases hf : declared.find? (fun d => d.handle == handle) with
  | some d => rfl
  | none =>
    simp only [Option.none_or]
    rw [List.find?_filter]
    congr 1
    funext p
    by_cases hp : p.handle = handle
    · subst hp
      have : (declared.any fun d => d.handle == p.handle) = false := by
        rw [List.find?_eq_none] at hf
        simpa using hf
      simp [this]
    · simp [hp]

/-- The document in progress has begun with `---`, or there were no directives. -/
def WalkIn (w : Walk) : Prop := w.opened = true ∨ (w.tags = [] ∧ w.version = none)

/-- Inside a document. -/
structure InDoc (S : TokSrc σ) (x0 : σ) (s : PS σ) (c : List Token) (w : Walk) : Prop where
  mid : Mid S x0 s c w
  tags : s.tags = table w.tags
  stk : ∀ st ∈ s.states, st.inDoc = true ∧ st.isFirst = false
  wf : WalkIn w

theorem indoc_irrel {S : TokSrc σ} {x0 : σ} {s s' : PS σ} {c c' : List Token} {w : Walk} (h : InDoc S x0 s c w)
    (hm : Mid S x0 s' c' w) (h1 : s'.tags = s.tags) (h2 : s'.states = s.states) (_ : True) :
    InDoc S x0 s' c' w := ⟨hm, by rw [h1, h.tags], by rw [h2]; exact h.stk, h.wf⟩

/-- The token peeked in a FIRST state means nothing to directives and tags. -/
def FirstOK (s : PS σ) : Prop := s.state.isFirst = true → ∃ t, s.avail = some t ∧ t.data.neutral = true

/-- What one call inside a document leaves: the walk over the newly consumed tokens saw what the event shows. -/
def Post (S : TokSrc σ) (x0 : σ) (c : List Token) (w : Walk) (e : Event) (s : PS σ) : Prop :=
  ∃ c1 w', InDoc S x0 s (c ++ c1) w' ∧ w'.items = w.items ++ itemOf e.data ∧ s.state.inDoc = true ∧ FirstOK s

theorem post_pop {S : TokSrc σ} {x0 : σ} {s s' : PS σ} {c c1 : List Token} {w w' : Walk} {e : Event} {st : PState}
    {K : List PState} (h : InDoc S x0 s (c ++ c1) w') (hm : Mid S x0 s' (c ++ c1) w') (hs : s.states = st :: K)
    (h1 : s'.tags = s.tags) (h2 : s'.states = K) (h3 : s'.state = st) (hi : w'.items = w.items ++ itemOf e.data) :
    Post S x0 c w e s' := by
  have hst := h.stk st (by rw [hs]; simp)
  refine ⟨c1, w', ⟨hm, by rw [h1, h.tags], ?_, h.wf⟩, hi, by rw [h3]; exact hst.1, fun hf => ?_⟩
  · intro a ha; rw [h2] at ha; exact h.stk a (by rw [hs]; exact List.mem_cons_of_mem _ ha)
  · rw [h3, hst.2] at hf; cases hf

theorem post_set {S : TokSrc σ} {x0 : σ} {s s' : PS σ} {c c1 : List Token} {w w' : Walk} {e : Event}
    (h : InDoc S x0 s (c ++ c1) w') (hm : Mid S x0 s' (c ++ c1) w')
    (h1 : s'.tags = s.tags) (h2 : s'.states = s.states) (h3 : s'.state.inDoc = true) (h4 : FirstOK s')
    (hi : w'.items = w.items ++ itemOf e.data) :
    Post S x0 c w e s' :=
  ⟨c1, w', indoc_irrel h hm h1 h2 trivial, hi, h3, h4⟩

theorem first_no {s : PS σ} (h : s.state.isFirst = false) : FirstOK s := fun hf => by rw [h] at hf; cases hf

theorem tag_items (w : Walk) (tag : Option Text) (e : EvData)
    (he : itemOf e = (tag.map Item.tag).toList) : w.items ++ (tag.map Item.tag).toList = w.items ++ itemOf e := by rw [he]

theorem tp_nodeContent {S : TokSrc σ} {x0 : σ} {n : Int} {block indentless : Bool} {p : Props} {tag : Option Text} {t : Token}
    {s : PS σ} {c c1 : List Token} {w w' : Walk} (h : InDoc S x0 s (c ++ c1) w') (ha : s.avail = some t)
    (hi : w'.items = w.items ++ (tag.map Item.tag).toList) :
    wp (nodeContent S n block indentless p tag t) (Post S x0 c w) Any s := by
  have hs : ∀ a i st, itemOf (.sequenceStart a tag i st) = (tag.map Item.tag).toList := by
    intro a i st; cases tag <;> rfl
  have hmp : ∀ a i st, itemOf (.mappingStart a tag i st) = (tag.map Item.tag).toList := by
    intro a i st; cases tag <;> rfl
  have hsc : ∀ a v pi qi st, itemOf (.scalar a tag v pi qi st) = (tag.map Item.tag).toList := by
    intro a v pi qi st; cases tag <;> rfl
  have hfirst : ∀ (st : PState) , t.data.neutral = true → FirstOK ({ s with state := st } : PS σ) := by
    intro st hn _; exact ⟨t, ha, hn⟩
  unfold nodeContent
  by_cases h1 : (indentless && t.data == .blockEntry) = true
  · simp only [h1, if_true]
    rw [wp_bind, wp_setState, wp_pure]
    exact post_set h (mid_irrel h.mid (by rfl) (by rfl)) (by rfl) (by rfl) (by rfl) (first_no (by rfl)) (by rw [hi, hs])
  · simp only [h1]
    simp only [Bool.false_eq_true, if_false]
    split
    next v style heq =>
      rw [wp_bind]
      apply tp_popState
      intro st K hst
      rw [wp_bind]
      refine tp_skip (mid_irrel h.mid (by rfl) (by rfl)) (by exact ha) (step_neutral _ (by rw [heq]; rfl)) ?_
      intro s2 hm2 e2
      rw [wp_pure]
      rw [List.append_assoc] at hm2
      refine ⟨c1 ++ [t], w', ⟨hm2, by rw [e2]; exact h.tags, ?_, h.wf⟩, by rw [hi, hsc], ?_, ?_⟩
      · intro a ha; rw [e2] at ha; exact h.stk a (by rw [hst]; exact List.mem_cons_of_mem _ ha)
      · rw [e2]; exact (h.stk st (by rw [hst]; simp)).1
      · apply first_no; rw [e2]; exact (h.stk st (by rw [hst]; simp)).2
    next heq =>
      rw [wp_bind]
      apply wp_checkLevel (by simp [Any])
      rw [wp_bind, wp_setState, wp_pure]
      exact post_set h (mid_irrel h.mid (by rfl) (by rfl)) (by rfl) (by rfl) (by rfl) (hfirst _ (by rw [heq]; rfl))
        (by rw [hi, hs])
    next heq =>
      rw [wp_bind]
      apply wp_checkLevel (by simp [Any])
      rw [wp_bind, wp_setState, wp_pure]
      exact post_set h (mid_irrel h.mid (by rfl) (by rfl)) (by rfl) (by rfl) (by rfl) (hfirst _ (by rw [heq]; rfl))
        (by rw [hi, hmp])
    next =>
      split
      next hc =>
        rw [wp_bind]
        apply wp_checkLevel (by simp [Any])
        rw [wp_bind, wp_setState, wp_pure]
        refine post_set h (mid_irrel h.mid (by rfl) (by rfl)) (by rfl) (by rfl) (by rfl) (hfirst _ ?_) (by rw [hi, hs])
        simp at hc; rw [hc.2]; rfl
      next =>
        split
        next hc =>
          rw [wp_bind]
          apply wp_checkLevel (by simp [Any])
          rw [wp_bind, wp_setState, wp_pure]
          refine post_set h (mid_irrel h.mid (by rfl) (by rfl)) (by rfl) (by rfl) (by rfl) (hfirst _ ?_) (by rw [hi, hmp])
          simp at hc; rw [hc.2]; rfl
        next =>
          split
          · rw [wp_bind]
            apply tp_popState
            intro st K hst
            rw [wp_pure]
            exact post_pop h (mid_irrel h.mid (by rfl) (by rfl)) hst (by rfl) (by rfl) (by rfl) (by rw [hi, hsc])
          · exact wp_pfail trivial

/-- After the properties the walk has seen the tag. -/
def PropsPost (S : TokSrc σ) (x0 : σ) (c : List Token) (w : Walk) (s0 : PS σ) : Props × Token → PS σ → Prop := fun r s =>
  s.avail = some r.2 ∧ s.tags = s0.tags ∧ s.states = s0.states ∧
    ∀ tag, (r.1.tag.elim (some none) fun x => (expand w.tags x.1 x.2.1).map some) = some tag →
      ∃ c1, Mid S x0 s (c ++ c1) { w with items := w.items ++ (tag.map Item.tag).toList }

theorem neutral_anchor {t : Token} {a : Text} (h : t.data = .anchor a) (w : Walk) : w.step t.data = some w :=
  step_neutral w (by rw [h]; rfl)

/-- The walk after a tag. -/
def addTag (w : Walk) (tag : Option Text) : Walk := { w with items := w.items ++ (tag.map Item.tag).toList }

/-- `Mid` for every expansion satisfying `P`. -/
def MidIf (S : TokSrc σ) (x0 : σ) (s : PS σ) (c : List Token) (w : Walk) (P : Option Text → Prop) : Prop :=
  ∀ tag, P tag → Mid S x0 s c (addTag w tag)

theorem tp_peekIf {S : TokSrc σ} {x0 : σ} {s : PS σ} {c : List Token} {w : Walk} {P : Option Text → Prop}
    {Q : Token → PS σ → Prop} (hm : MidIf S x0 s c w P)
    (h : ∀ t s', MidIf S x0 s' c w P → s'.avail = some t → s' = { s with avail := some t, src := s'.src } → Q t s') :
    wp (peek S) Q Any s := by
  unfold wp peek
  cases ha : s.avail with
  | some t => exact h t s hm ha (by rw [← ha])
  | none =>
    simp only
    cases hn : S.next s.src with
    | error e => trivial
    | ok p =>
      refine h _ _ (fun tag hP => ⟨?_, (hm tag hP).run⟩) rfl rfl
      have := (hm tag hP).fed
      rw [ha] at this
      simp only [Option.toList_none, List.append_nil] at this
      exact .snoc this hn

theorem tp_skipTag {S : TokSrc σ} {x0 : σ} {s : PS σ} {c : List Token} {w : Walk} {t : Token} {hd sf : Text}
    {Q : Unit → PS σ → Prop} (hm : Mid S x0 s c w) (ha : s.avail = some t) (ht : t.data = .tag hd sf)
    (h : ∀ s', MidIf S x0 s' (c ++ [t]) w (fun tag => (expand w.tags hd sf).map some = some tag) →
      s' = { s with avail := s'.avail, ended := s'.ended } → Q () s') : wp skipTok Q Any s := by
  unfold wp skipTok; rw [ha]
  refine h _ (fun tag hP => mid_skip hm ha rfl rfl ?_) rfl
  rw [ht]
  simp only [Walk.step]
  cases hx : expand w.tags hd sf with
  | none => rw [hx] at hP; cases hP
  | some tx => rw [hx] at hP; cases hP; rfl

theorem tp_skipIf {S : TokSrc σ} {x0 : σ} {s : PS σ} {c : List Token} {w : Walk} {P : Option Text → Prop} {t : Token}
    {a : Text} {Q : Unit → PS σ → Prop} (hm : MidIf S x0 s c w P) (ha : s.avail = some t) (ht : t.data = .anchor a)
    (h : ∀ s', MidIf S x0 s' (c ++ [t]) w P → s' = { s with avail := s'.avail, ended := s'.ended } → Q () s') :
    wp skipTok Q Any s := by
  unfold wp skipTok; rw [ha]
  exact h _ (fun tag hP => mid_skip (hm tag hP) ha rfl rfl (neutral_anchor ht _)) rfl

theorem tp_parseProps {S : TokSrc σ} {x0 : σ} {s : PS σ} {c : List Token} {w : Walk} {t : Token} (h : Mid S x0 s c w)
    (ha : s.avail = some t) {Q : Props × Token → PS σ → Prop} (hQ : ∀ r s', PropsPost S x0 c w s r s' → Q r s') :
    wp (parseProps S t) Q Any s := by
  have none_ok : ∀ {s' : PS σ} {c1 : List Token}, Mid S x0 s' (c ++ c1) w → ∀ tag : Option Text,
      (some none : Option (Option Text)) = some tag →
      ∃ c1, Mid S x0 s' (c ++ c1) { w with items := w.items ++ (tag.map Item.tag).toList } := by
    intro s' c1 hm tag ht
    cases ht
    exact ⟨c1, by simpa using hm⟩
  unfold parseProps
  split
  next a heq =>
    rw [wp_bind]
    refine tp_skip h ha (neutral_anchor heq w) ?_
    intro s1 hm1 e1
    rw [wp_bind]
    apply tp_peek hm1
    intro t2 s2 hm2 ha2 e2
    split
    next hd sf heq2 =>
      rw [wp_bind]
      refine tp_skipTag hm2 ha2 heq2 ?_
      intro s3 hm3 e3
      rw [wp_bind]
      apply tp_peekIf hm3
      intro t4 s4 hm4 ha4 e4
      rw [wp_pure]
      refine hQ _ _ ⟨ha4, by rw [e4, e3, e2, e1], by rw [e4, e3, e2, e1], fun tag htag => ⟨[t] ++ [t2], ?_⟩⟩
      rw [← List.append_assoc]
      exact hm4 tag htag
    next =>
      rw [wp_pure]
      exact hQ _ _ ⟨ha2, by rw [e2, e1], by rw [e2, e1], none_ok hm2⟩
  next hd sf heq =>
    rw [wp_bind]
    refine tp_skipTag h ha heq ?_
    intro s1 hm1 e1
    rw [wp_bind]
    apply tp_peekIf hm1
    intro t2 s2 hm2 ha2 e2
    split
    next a heq2 =>
      rw [wp_bind]
      refine tp_skipIf hm2 ha2 heq2 ?_
      intro s3 hm3 e3
      rw [wp_bind]
      apply tp_peekIf hm3
      intro t4 s4 hm4 ha4 e4
      rw [wp_pure]
      refine hQ _ _ ⟨ha4, by rw [e4, e3, e2, e1], by rw [e4, e3, e2, e1], fun tag htag => ⟨[t] ++ [t2], ?_⟩⟩
      rw [← List.append_assoc]
      exact hm4 tag htag
    next =>
      rw [wp_pure]
      exact hQ _ _ ⟨ha2, by rw [e2, e1], by rw [e2, e1], fun tag htag => ⟨[t], hm2 tag htag⟩⟩
  next =>
    rw [wp_pure]
    exact hQ _ _ ⟨ha, rfl, rfl, none_ok (c1 := []) (by simpa using h)⟩

theorem resolve_expand {tags : List TagDir} {p : Props} {tag : Option Text} (h : resolveTag (table tags) p = .ok tag) :
    (p.tag.elim (some none) fun x => (expand tags x.1 x.2.1).map some) = some tag := by
  unfold resolveTag at h
  cases hp : p.tag with
  | none => rw [hp] at h; cases h; rfl
  | some x =>
    obtain ⟨hd, sf, m⟩ := x
    rw [hp] at h
    simp only [Option.elim_some, expand] at *
    by_cases h0 : hd = []
    · rw [if_pos h0] at h ⊢; cases h; rfl
    · rw [if_neg h0] at h ⊢
      rw [find_table] at h
      split at h
      next d hf => rw [hf]; cases h; rfl
      next => cases h

theorem tp_parseNode {S : TokSrc σ} {x0 : σ} {n : Int} {block indentless : Bool} {s : PS σ} {c c0 : List Token} {w : Walk}
    (h : InDoc S x0 s (c ++ c0) w) : wp (parseNode S n block indentless) (Post S x0 c w) Any s := by
  unfold parseNode
  rw [wp_bind]
  apply tp_peek h.mid
  intro t s1 hm1 ha1 e1
  split
  next a heq =>
    rw [wp_bind]
    apply tp_popState
    intro st K hst
    rw [wp_bind]
    refine tp_skip (mid_irrel hm1 (by rfl) (by rfl)) (by exact ha1) (step_neutral _ (by rw [heq]; rfl)) ?_
    intro s2 hm2 e2
    rw [wp_pure]
    rw [e1] at hst
    have hst' : s.states = st :: K := hst
    rw [List.append_assoc] at hm2
    refine ⟨c0 ++ [t], w, ⟨hm2, by rw [e2, e1]; exact h.tags, ?_, h.wf⟩, by simp [itemOf], ?_, ?_⟩
    · intro a ha; rw [e2] at ha; exact h.stk a (by rw [hst']; exact List.mem_cons_of_mem _ ha)
    · rw [e2]; exact (h.stk st (by rw [hst']; simp)).1
    · apply first_no; rw [e2]; exact (h.stk st (by rw [hst']; simp)).2
  next =>
    rw [wp_bind]
    apply tp_parseProps hm1 ha1
    rintro ⟨p, t'⟩ s2 ⟨hp1, hp2, hp3, hp4⟩
    simp only at hp1 hp4
    simp only
    have ht2 : s2.tags = table w.tags := by rw [hp2, e1]; exact h.tags
    rw [wp_bind]
    unfold resolveTagM
    rw [wp_bind, wp_getTags, ht2]
    cases hr : resolveTag (table w.tags) p with
    | error e => trivial
    | ok tag =>
      simp only
      rw [wp_pure]
      obtain ⟨c1, hm⟩ := hp4 tag (resolve_expand hr)
      refine tp_nodeContent (c1 := c0 ++ c1) (w' := { w with items := w.items ++ (tag.map Item.tag).toList })
        ⟨by rw [← List.append_assoc]; exact hm, ht2, by rw [hp3, e1]; exact h.stk, h.wf⟩ hp1 rfl

/-- An empty scalar. -/
theorem tp_empty {S : TokSrc σ} {x0 : σ} {s : PS σ} {c c1 : List Token} {w : Walk} (m : Mark)
    (h : InDoc S x0 s (c ++ c1) w) (h1 : s.state.inDoc = true) (h2 : s.state.isFirst = false) :
    wp (emptyScalar m) (Post S x0 c w) Any s := by
  unfold emptyScalar
  rw [wp_pure]
  exact ⟨c1, w, h, by simp [itemOf], h1, first_no h2⟩

theorem tp_enter {S : TokSrc σ} {x0 : σ} {s : PS σ} {c : List Token} {w : Walk} {first : Bool}
    {Q : Unit → PS σ → Prop} (h : InDoc S x0 s c w)
    (hf : first = true → ∃ t, s.avail = some t ∧ t.data.neutral = true)
    (hQ : ∀ s' c1, InDoc S x0 s' (c ++ c1) w → Q () s') : wp (enterCollection S first) Q Any s := by
  unfold enterCollection
  cases first
  · simp only [Bool.false_eq_true, if_false]
    exact hQ s [] (by simpa using h)
  · simp only [if_true]
    obtain ⟨t, ha, hn⟩ := hf rfl
    rw [wp_bind]
    refine tp_peekUnchecked h.mid t ha ?_
    rw [wp_bind, wp_pushMark]
    refine tp_skip (mid_irrel h.mid (by rfl) (by rfl)) (by exact ha) (step_neutral w hn) ?_
    intro s' hm e
    exact hQ s' [t] (indoc_irrel h hm (by rw [e]) (by rw [e]) trivial)

/-- Pushing a continuation. -/
theorem indoc_push {S : TokSrc σ} {x0 : σ} {s : PS σ} {c : List Token} {w : Walk} (h : InDoc S x0 s c w) (st : PState)
    (h1 : st.inDoc = true) (h2 : st.isFirst = false) : InDoc S x0 ({ s with states := st :: s.states } : PS σ) c w :=
  ⟨mid_irrel h.mid rfl rfl, h.tags, by
    intro a ha
    rcases List.mem_cons.mp ha with rfl | ha
    · exact ⟨h1, h2⟩
    · exact h.stk a ha, h.wf⟩

theorem indoc_set {S : TokSrc σ} {x0 : σ} {s : PS σ} {c : List Token} {w : Walk} (h : InDoc S x0 s c w) (st : PState) :
    InDoc S x0 ({ s with state := st } : PS σ) c w := ⟨mid_irrel h.mid rfl rfl, h.tags, h.stk, h.wf⟩

/-- Peek inside a document. -/
theorem td_peek {S : TokSrc σ} {x0 : σ} {s : PS σ} {c : List Token} {w : Walk} {Q : Token → PS σ → Prop}
    (h : InDoc S x0 s c w) (hQ : ∀ t s', InDoc S x0 s' c w → s'.avail = some t → Q t s') : wp (peek S) Q Any s := by
  apply tp_peek h.mid
  intro t s' hm ha e
  exact hQ t s' (indoc_irrel h hm (by rw [e]) (by rw [e]) trivial) ha

/-- Skip a meaningless token inside a document. -/
theorem td_skip {S : TokSrc σ} {x0 : σ} {s : PS σ} {c c1 : List Token} {w : Walk} {Q : Unit → PS σ → Prop} {t : Token}
    (h : InDoc S x0 s (c ++ c1) w) (ha : s.avail = some t) (hn : t.data.neutral = true)
    (hQ : ∀ s', InDoc S x0 s' (c ++ (c1 ++ [t])) w → s'.state = s.state → Q () s') : wp skipTok Q Any s := by
  refine tp_skip h.mid ha (step_neutral w hn) ?_
  intro s' hm e
  rw [List.append_assoc] at hm
  exact hQ s' (indoc_irrel h hm (by rw [e]) (by rw [e]) trivial) (by rw [e])

theorem td_popMark {S : TokSrc σ} {x0 : σ} {s : PS σ} {c : List Token} {w : Walk} {Q : Mark → PS σ → Prop}
    (h : InDoc S x0 s c w) (hQ : ∀ m s', InDoc S x0 s' c w → s'.state = s.state → s'.avail = s.avail → Q m s') :
    wp popMark Q Any s := by
  apply tp_popMark
  intro m ms
  exact hQ m _ ⟨mid_irrel h.mid rfl rfl, h.tags, h.stk, h.wf⟩ rfl rfl

theorem td_popState {S : TokSrc σ} {x0 : σ} {s : PS σ} {c : List Token} {w : Walk} {Q : Unit → PS σ → Prop}
    (h : InDoc S x0 s c w)
    (hQ : ∀ s', InDoc S x0 s' c w → s'.state.inDoc = true → s'.state.isFirst = false → s'.avail = s.avail → Q () s') :
    wp popState Q Any s := by
  apply tp_popState
  intro st K hs
  refine hQ _ ⟨mid_irrel h.mid rfl rfl, h.tags, ?_, h.wf⟩ (h.stk st (by rw [hs]; simp)).1 (h.stk st (by rw [hs]; simp)).2 rfl
  intro a ha
  exact h.stk a (by rw [hs]; exact List.mem_cons_of_mem _ ha)

/-- An event that shows nothing, from a state inside the document. -/
theorem post_plain {S : TokSrc σ} {x0 : σ} {s : PS σ} {c c1 : List Token} {w : Walk} {e : Event}
    (h : InDoc S x0 s (c ++ c1) w) (h1 : s.state.inDoc = true) (h2 : s.state.isFirst = false) (he : itemOf e.data = []) :
    Post S x0 c w e s := ⟨c1, w, h, by rw [he]; simp, h1, first_no h2⟩

section content
variable {S : TokSrc σ} {x0 : σ} {s : PS σ} {c c0 : List Token} {w : Walk} {n : Int}

theorem tp_endFlow {d : EvData} {t : Token} (h : InDoc S x0 s (c ++ c0) w) (ha : s.avail = some t)
    (hn : t.data.neutral = true) (hd : itemOf d = []) : wp (endFlow d t) (Post S x0 c w) Any s := by
  unfold endFlow
  rw [wp_bind]
  apply td_popState h
  intro s1 h1 a1 b1 c1
  rw [wp_bind]
  apply td_popMark h1
  intro m s2 h2 e2 f2
  rw [wp_bind]
  refine td_skip h2 (by rw [f2, c1]; exact ha) hn ?_
  intro s3 h3 e3
  rw [wp_pure]
  exact post_plain h3 (by rw [e3, e2]; exact a1) (by rw [e3, e2]; exact b1) hd

theorem tp_blockSequenceEntry {first : Bool} (h : InDoc S x0 s (c ++ c0) w)
    (hf : first = true → ∃ t, s.avail = some t ∧ t.data.neutral = true) :
    wp (parseBlockSequenceEntry S n first) (Post S x0 c w) Any s := by
  unfold parseBlockSequenceEntry
  rw [wp_bind]
  apply tp_enter h hf
  intro s1 c1 h1
  rw [List.append_assoc] at h1
  rw [wp_bind]
  apply td_peek h1
  intro t s2 h2 ha2
  split
  next heq =>
    rw [wp_bind]
    refine td_skip h2 ha2 (by rw [heq]; rfl) ?_
    intro s3 h3 _
    rw [wp_bind]
    apply td_peek h3
    intro t4 s4 h4 ha4
    split
    · rw [wp_bind, wp_pushState]
      exact tp_parseNode (indoc_push h4 _ rfl rfl)
    · rw [wp_bind, wp_setState]
      exact tp_empty _ (indoc_set h4 _) rfl rfl
  next heq =>
    exact tp_endFlow h2 ha2 (by rw [heq]; rfl) rfl
  next =>
    rw [wp_bind]
    apply td_popMark h2
    intro m s3 _ _ _
    exact wp_pfail trivial

theorem tp_indentless (h : InDoc S x0 s (c ++ c0) w) :
    wp (parseIndentlessSequenceEntry S n) (Post S x0 c w) Any s := by
  unfold parseIndentlessSequenceEntry
  rw [wp_bind]
  apply td_peek h
  intro t s2 h2 ha2
  split
  next heq =>
    rw [wp_bind]
    refine td_skip h2 ha2 (by rw [heq]; rfl) ?_
    intro s3 h3 _
    rw [wp_bind]
    apply td_peek h3
    intro t4 s4 h4 ha4
    split
    · rw [wp_bind, wp_pushState]
      exact tp_parseNode (indoc_push h4 _ rfl rfl)
    · rw [wp_bind, wp_setState]
      exact tp_empty _ (indoc_set h4 _) rfl rfl
  next =>
    rw [wp_bind]
    apply td_popState h2
    intro s3 h3 a b _
    rw [wp_pure]
    exact post_plain h3 a b rfl

theorem tp_blockMappingKey {first : Bool} (h : InDoc S x0 s (c ++ c0) w)
    (hf : first = true → ∃ t, s.avail = some t ∧ t.data.neutral = true) :
    wp (parseBlockMappingKey S n first) (Post S x0 c w) Any s := by
  unfold parseBlockMappingKey
  rw [wp_bind]
  apply tp_enter h hf
  intro s1 c1 h1
  rw [List.append_assoc] at h1
  rw [wp_bind]
  apply td_peek h1
  intro t s2 h2 ha2
  split
  next heq =>
    rw [wp_bind]
    refine td_skip h2 ha2 (by rw [heq]; rfl) ?_
    intro s3 h3 _
    rw [wp_bind]
    apply td_peek h3
    intro t4 s4 h4 ha4
    split
    · rw [wp_bind, wp_pushState]
      exact tp_parseNode (indoc_push h4 _ rfl rfl)
    · rw [wp_bind, wp_setState]
      exact tp_empty _ (indoc_set h4 _) rfl rfl
  next heq =>
    exact tp_endFlow h2 ha2 (by rw [heq]; rfl) rfl
  next =>
    rw [wp_bind]
    apply td_popMark h2
    intro m s3 _ _ _
    exact wp_pfail trivial

theorem tp_blockMappingValue (h : InDoc S x0 s (c ++ c0) w) :
    wp (parseBlockMappingValue S n) (Post S x0 c w) Any s := by
  unfold parseBlockMappingValue
  rw [wp_bind]
  apply td_peek h
  intro t s2 h2 ha2
  split
  next heq =>
    rw [wp_bind]
    refine td_skip h2 ha2 (by rw [heq]; rfl) ?_
    intro s3 h3 _
    rw [wp_bind]
    apply td_peek h3
    intro t4 s4 h4 ha4
    split
    · rw [wp_bind, wp_pushState]
      exact tp_parseNode (indoc_push h4 _ rfl rfl)
    · rw [wp_bind, wp_setState]
      exact tp_empty _ (indoc_set h4 _) rfl rfl
  next =>
    rw [wp_bind, wp_setState]
    exact tp_empty _ (indoc_set h2 _) rfl rfl

theorem tp_separator {first : Bool} {t : Token} {a b : String} {Q : Token → PS σ → Prop} (h : InDoc S x0 s (c ++ c0) w)
    (ha : s.avail = some t) (hQ : ∀ t' s' c1, InDoc S x0 s' (c ++ c1) w → s'.avail = some t' → Q t' s') :
    wp (flowSeparator S first t a b) Q Any s := by
  unfold flowSeparator
  cases first
  · simp only [Bool.false_eq_true, if_false]
    split
    next heq =>
      rw [wp_bind]
      refine td_skip h ha (by rw [heq]; rfl) ?_
      intro s1 h1 _
      apply td_peek h1
      intro t2 s2 h2 ha2
      exact hQ t2 s2 _ h2 ha2
    next =>
      rw [wp_bind]
      apply td_popMark h
      intro m s3 _ _ _
      exact wp_pfail trivial
  · simp only [if_true]
    rw [wp_pure]
    exact hQ t s c0 h ha

theorem tp_flowSequenceEntry {first : Bool} (h : InDoc S x0 s (c ++ c0) w)
    (hf : first = true → ∃ t, s.avail = some t ∧ t.data.neutral = true) :
    wp (parseFlowSequenceEntry S n first) (Post S x0 c w) Any s := by
  unfold parseFlowSequenceEntry
  rw [wp_bind]
  apply tp_enter h hf
  intro s1 c1 h1
  rw [List.append_assoc] at h1
  rw [wp_bind]
  apply td_peek h1
  intro t s2 h2 ha2
  split
  next =>
    rw [wp_bind]
    apply tp_separator h2 ha2
    intro t3 s3 c3 h3 ha3
    split
    next heq =>
      rw [wp_bind, wp_setState, wp_bind]
      refine td_skip (indoc_set h3 _) (by exact ha3) (by rw [heq]; rfl) ?_
      intro s4 h4 e4
      rw [wp_pure]
      exact post_plain h4 (by rw [e4]; rfl) (by rw [e4]; rfl) rfl
    next =>
      split
      next =>
        rw [wp_bind, wp_pushState]
        exact tp_parseNode (indoc_push h3 _ rfl rfl)
      next heq => exact tp_endFlow h3 ha3 (by rw [Decidable.not_not.mp heq]; rfl) rfl
  next heq => exact tp_endFlow h2 ha2 (by rw [Decidable.not_not.mp heq]; rfl) rfl

theorem tp_fseKey (h : InDoc S x0 s (c ++ c0) w) :
    wp (parseFlowSequenceEntryMappingKey S n) (Post S x0 c w) Any s := by
  unfold parseFlowSequenceEntryMappingKey
  rw [wp_bind]
  apply td_peek h
  intro t s2 h2 ha2
  split
  next =>
    rw [wp_bind, wp_pushState]
    exact tp_parseNode (indoc_push h2 _ rfl rfl)
  next hc =>
    split
    next =>
      rw [wp_bind, wp_setState]
      exact tp_empty _ (indoc_set h2 _) rfl rfl
    next hne =>
      have hn : t.data.neutral = true := by
        by_cases h1 : t.data = .value
        · rw [h1]; rfl
        · by_cases h3 : t.data = .flowEntry
          · rw [h3]; rfl
          · exact absurd ⟨h1, h3, hne⟩ hc
      rw [wp_bind]
      refine td_skip h2 ha2 hn ?_
      intro s3 h3 _
      rw [wp_bind, wp_setState]
      exact tp_empty _ (indoc_set h3 _) rfl rfl

theorem tp_fseValue (h : InDoc S x0 s (c ++ c0) w) :
    wp (parseFlowSequenceEntryMappingValue S n) (Post S x0 c w) Any s := by
  unfold parseFlowSequenceEntryMappingValue
  rw [wp_bind]
  apply td_peek h
  intro t s2 h2 ha2
  split
  next heq =>
    rw [wp_bind]
    refine td_skip h2 ha2 (by rw [heq]; rfl) ?_
    intro s3 h3 _
    rw [wp_bind]
    apply td_peek h3
    intro t4 s4 h4 ha4
    split
    · rw [wp_bind, wp_pushState]
      exact tp_parseNode (indoc_push h4 _ rfl rfl)
    · rw [wp_bind, wp_setState]
      exact tp_empty _ (indoc_set h4 _) rfl rfl
  next =>
    rw [wp_bind, wp_setState]
    exact tp_empty _ (indoc_set h2 _) rfl rfl

theorem tp_fseEnd (h : InDoc S x0 s (c ++ c0) w) :
    wp (parseFlowSequenceEntryMappingEnd S) (Post S x0 c w) Any s := by
  unfold parseFlowSequenceEntryMappingEnd
  rw [wp_bind]
  apply td_peek h
  intro t s2 h2 ha2
  rw [wp_bind, wp_setState, wp_pure]
  exact post_plain (indoc_set h2 _) rfl rfl rfl

theorem tp_flowMappingKey {first : Bool} (h : InDoc S x0 s (c ++ c0) w)
    (hf : first = true → ∃ t, s.avail = some t ∧ t.data.neutral = true) :
    wp (parseFlowMappingKey S n first) (Post S x0 c w) Any s := by
  unfold parseFlowMappingKey
  rw [wp_bind]
  apply tp_enter h hf
  intro s1 c1 h1
  rw [List.append_assoc] at h1
  rw [wp_bind]
  apply td_peek h1
  intro t s2 h2 ha2
  split
  next =>
    rw [wp_bind]
    apply tp_separator h2 ha2
    intro t3 s3 c3 h3 ha3
    split
    next heq =>
      rw [wp_bind]
      refine td_skip h3 ha3 (by rw [heq]; rfl) ?_
      intro s4 h4 _
      rw [wp_bind]
      apply td_peek h4
      intro t5 s5 h5 ha5
      split
      · rw [wp_bind, wp_pushState]
        exact tp_parseNode (indoc_push h5 _ rfl rfl)
      · rw [wp_bind, wp_setState]
        exact tp_empty _ (indoc_set h5 _) rfl rfl
    next =>
      split
      next =>
        rw [wp_bind, wp_pushState]
        exact tp_parseNode (indoc_push h3 _ rfl rfl)
      next heq => exact tp_endFlow h3 ha3 (by rw [Decidable.not_not.mp heq]; rfl) rfl
  next heq => exact tp_endFlow h2 ha2 (by rw [Decidable.not_not.mp heq]; rfl) rfl

theorem tp_flowMappingValue {empty : Bool} (h : InDoc S x0 s (c ++ c0) w) :
    wp (parseFlowMappingValue S n empty) (Post S x0 c w) Any s := by
  unfold parseFlowMappingValue
  rw [wp_bind]
  apply td_peek h
  intro t s2 h2 ha2
  split
  next =>
    rw [wp_bind, wp_setState]
    exact tp_empty _ (indoc_set h2 _) rfl rfl
  next =>
    split
    next heq =>
      rw [wp_bind]
      refine td_skip h2 ha2 (by rw [heq]; rfl) ?_
      intro s3 h3 _
      rw [wp_bind]
      apply td_peek h3
      intro t4 s4 h4 ha4
      split
      · rw [wp_bind, wp_pushState]
        exact tp_parseNode (indoc_push h4 _ rfl rfl)
      · rw [wp_bind, wp_setState]
        exact tp_empty _ (indoc_set h4 _) rfl rfl
    next =>
      rw [wp_bind, wp_setState]
      exact tp_empty _ (indoc_set h2 _) rfl rfl

end content

/-! ### Documents -/

/-- The two predeclared directives are added unless declared. -/
theorem appendDefaults (ts : List TagDir) (m1 m2 : Mark) :
    (appendTag ⟨lit ['!'], lit ['!']⟩ true m1 ts).bind (appendTag
      ⟨lit ['!', '!'], lit ['t','a','g',':','y','a','m','l','.','o','r','g',',','2','0','0','2',':']⟩ true m2) =
      .ok (table ts) := by
  unfold table predeclared appendTag
  have hne : (lit ['!'] == lit ['!', '!']) = false := by decide
  by_cases h1 : (ts.any fun d => d.handle == lit ['!']) = true
  · by_cases h2 : (ts.any fun d => d.handle == lit ['!', '!']) = true
    · simp [h1, h2, Except.bind]
    · simp only [Bool.not_eq_true] at h2; simp [h1, h2, Except.bind]
  · simp only [Bool.not_eq_true] at h1
    by_cases h2 : (ts.any fun d => d.handle == lit ['!', '!']) = true
    · simp [h1, h2, Except.bind]
    · simp only [Bool.not_eq_true] at h2; simp [h1, h2, Except.bind, hne]

theorem fresh_idem (w : Walk) : w.fresh.fresh = w.fresh := by
  unfold Walk.fresh
  by_cases h : w.opened = true <;> simp [h]

theorem fresh_items (w : Walk) : w.fresh.items = w.items := by
  unfold Walk.fresh; split <;> rfl

section documents
variable {S : TokSrc σ} {x0 : σ} {s : PS σ} {n : Int}

theorem tp_directivesLoop (fuel : Nat) {c : List Token} {w : Walk} {v : Option Version} {ts : List TagDir}
    {Q : Option Version × List TagDir → PS σ → Prop} (hm : Mid S x0 s c w) (h1 : s.tags = w.fresh.tags)
    (h2 : v = w.fresh.version) (h3 : ts = w.fresh.tags)
    (hQ : ∀ (r : Option Version × List TagDir) (s' : PS σ) (c1 : List Token) (w' : Walk), Mid S x0 s' (c ++ c1) w' → s'.tags = w'.fresh.tags →
      r = (w'.fresh.version, w'.fresh.tags) → s'.states = s.states → w'.items = w.items → Q r s') :
    wp (directivesLoop S fuel v ts) Q Any s := by
  induction fuel generalizing c w v ts s with
  | zero => exact wp_pfail trivial
  | succ fuel ih =>
    unfold directivesLoop
    rw [wp_bind]
    apply tp_peek hm
    intro t s1 hm1 ha1 e1
    have e1t : s1.tags = s.tags := by rw [e1]
    have e1s : s1.states = s.states := by rw [e1]
    split
    next ver heq =>
      split
      · exact wp_pfail trivial
      next hv =>
        split
        · exact wp_pfail trivial
        next hok =>
          rw [wp_bind]
          have hst : w.step t.data = some { w.fresh with version := some ver } := by
            rw [heq]
            have hn : w.fresh.version.isSome = false := by rw [← h2]; simpa using hv
            have hver : ver = ⟨1, 1⟩ ∨ ver = ⟨1, 2⟩ := by
              obtain ⟨a, b⟩ := ver
              simp only [Version.mk.injEq]
              simp only at hok
              omega
            simp only [Walk.step, hn, Bool.false_eq_true, if_false, if_pos hver]
          refine tp_skip hm1 ha1 hst ?_
          intro s2 hm2 e2
          have hfr : ({ w.fresh with version := some ver } : Walk).fresh = { w.fresh with version := some ver } := by
            have := fresh_idem w
            unfold Walk.fresh at *
            by_cases hw : w.opened = true <;> simp [hw]
          apply ih hm2
          · rw [hfr, e2, e1t, h1]
          · rw [hfr]
          · rw [hfr, h3]
          · intro r s' c1 w' a1 a2 a3 a4 a5
            rw [List.append_assoc] at a1
            exact hQ r s' _ w' a1 a2 a3 (by rw [a4, e2, e1s]) (by rw [a5]; exact fresh_items w)
    next d heq =>
      rw [wp_bind]
      unfold appendTagM
      rw [wp_bind, wp_getTags]
      unfold appendTag
      rw [e1t, h1]
      by_cases hdup : (w.fresh.tags.any fun e => e.handle == d.handle) = true
      · simp only [hdup, if_true, Bool.false_eq_true, if_false]
        exact wp_pfail trivial
      · simp only [hdup]
        simp only [Bool.false_eq_true, if_false]
        rw [wp_setTags, wp_bind]
        have hst : w.step t.data = some { w.fresh with tags := w.fresh.tags ++ [d] } := by
          rw [heq]
          have hn : ¬ ∃ e ∈ w.fresh.tags, e.handle = d.handle := by
            rintro ⟨e, he1, he2⟩
            exact hdup (List.any_eq_true.mpr ⟨e, he1, by simp [he2]⟩)
          simp only [Walk.step, if_neg hn]
        refine tp_skip (mid_irrel hm1 (by rfl) (by rfl)) (by exact ha1) hst ?_
        intro s2 hm2 e2
        have hfr : ({ w.fresh with tags := w.fresh.tags ++ [d] } : Walk).fresh = { w.fresh with tags := w.fresh.tags ++ [d] } := by
          unfold Walk.fresh
          by_cases hw : w.opened = true <;> simp [hw]
        apply ih hm2
        · rw [hfr, e2]
        · rw [hfr, h2]
        · rw [hfr, h3]
        · intro r s' c1 w' a1 a2 a3 a4 a5
          rw [List.append_assoc] at a1
          exact hQ r s' _ w' a1 a2 a3 (by rw [a4, e2]; exact e1s) (by rw [a5]; exact fresh_items w)
    next =>
      rw [wp_pure]
      exact hQ _ s1 [] w (by simpa using hm1) (by rw [e1t, h1]) (by rw [h2, h3]) e1s rfl

/-- The part of `processDirectives` after the loop. -/
theorem tp_defaults {c : List Token} {w : Walk} {r : Option Version × List TagDir}
    {Q : Option Version × List TagDir → PS σ → Prop} (hm : Mid S x0 s c w)
    (hQ : ∀ t (s' : PS σ), Mid S x0 s' c w → s'.avail = some t → s'.tags = table s.tags → s'.states = s.states →
      (∀ t0, s.avail = some t0 → t = t0) → Q r s') :
    wp (do
      let token ← peek S
      appendTagM ⟨lit ['!'], lit ['!']⟩ true token.start
      appendTagM ⟨lit ['!', '!'], lit ['t','a','g',':','y','a','m','l','.','o','r','g',',','2','0','0','2',':']⟩ true token.start
      pure r : PM σ (Option Version × List TagDir)) Q Any s := by
  unfold wp
  simp only [bind, StateT.bind, Except.bind]
  cases hp : peek S s with
  | error e => trivial
  | ok q =>
    obtain ⟨t, s1⟩ := q
    have hw : wp (peek S) (fun t s' => Mid S x0 s' c w ∧ s'.avail = some t ∧ s'.tags = s.tags ∧ s'.states = s.states ∧
        (∀ t0, s.avail = some t0 → t = t0)) Any s := by
      unfold wp
      have h0 : wp (peek S) (fun t s' => Mid S x0 s' c w ∧ s'.avail = some t ∧ s'.tags = s.tags ∧ s'.states = s.states) Any s :=
        tp_peek hm (fun t s' a b e => ⟨a, b, by rw [e], by rw [e]⟩)
      rw [hp]
      obtain ⟨a, b, c, d⟩ := wp_ok (Q := fun t s' => Mid S x0 s' _ w ∧ s'.avail = some t ∧ s'.tags = s.tags ∧ s'.states = s.states) h0 hp
      refine ⟨a, b, c, d, ?_⟩
      intro t0 ht0
      unfold peek at hp
      rw [ht0] at hp
      cases hp
      rfl
    rw [wp] at hw
    rw [hp] at hw
    obtain ⟨hm1, ha1, ht1, hs1, hsame⟩ := hw
    have hd := appendDefaults s.tags t.start t.start
    simp only [appendTagM, bind, StateT.bind, Except.bind, getTags]
    cases ha : appendTag ⟨lit ['!'], lit ['!']⟩ true t.start s.tags with
    | error e => rw [ha] at hd; cases hd
    | ok ts1 =>
      rw [ha] at hd
      simp only [Except.bind] at hd
      simp only [ht1, ha, setTags, hd, pure, StateT.pure, Except.pure]
      exact hQ t _ (mid_irrel hm1 rfl rfl) ha1 rfl hs1 hsame

theorem tp_processDirectives (fuel : Nat) {c : List Token} {w : Walk}
    {Q : Option Version × List TagDir → PS σ → Prop} (hm : Mid S x0 s c w) (h1 : s.tags = w.fresh.tags)
    (h2 : w.fresh.version = none) (h3 : w.fresh.tags = [])
    (hQ : ∀ (r : Option Version × List TagDir) (s' : PS σ) (c1 : List Token) (w' : Walk), Mid S x0 s' (c ++ c1) w' → s'.tags = table w'.fresh.tags →
      r = (w'.fresh.version, w'.fresh.tags) → s'.states = s.states → w'.items = w.items → Q r s') :
    wp (processDirectives S fuel) Q Any s := by
  unfold processDirectives
  rw [wp_bind]
  apply tp_directivesLoop fuel hm h1 h2.symm h3.symm
  intro r s1 c1 w1 a1 a2 a3 a4 a5
  apply tp_defaults a1
  intro t s2 b1 b2 b3 b4 _
  exact hQ r s2 c1 w1 b1 (by rw [b3, a2]) a3 (by rw [b4, a4]) a5

/-- No directives at all. -/
theorem tp_processDirectives_none (fuel : Nat) {c : List Token} {w : Walk} {t : Token}
    {Q : Option Version × List TagDir → PS σ → Prop} (hm : Mid S x0 s c w) (ha : s.avail = some t)
    (ht : t.data.startsDocument = false)
    (hQ : ∀ (r : Option Version × List TagDir) (s' : PS σ), Mid S x0 s' c w → s'.tags = table s.tags →
      s'.states = s.states → Q r s') :
    wp (processDirectives S fuel) Q Any s := by
  unfold processDirectives
  rw [wp_bind]
  cases fuel with
  | zero => exact wp_pfail trivial
  | succ fuel =>
    have hl : directivesLoop S (fuel + 1) none [] s = .ok ((none, []), s) := by
      unfold directivesLoop
      simp only [bind, StateT.bind, Except.bind, peek, ha]
      cases hd : t.data <;> rw [hd] at ht <;> first | rfl | cases ht
    unfold wp
    rw [hl]
    apply tp_defaults hm
    intro t' s2 b1 b2 b3 b4 _
    exact hQ _ s2 b1 b3 b4

theorem tp_skipDocumentEnds (fuel : Nat) {c : List Token} {w : Walk} {Q : Unit → PS σ → Prop} (hm : Mid S x0 s c w)
    (hw : WalkIn w) (h1 : s.tags = []) (h2 : s.states = [])
    (hQ : ∀ (s' : PS σ) (c1 : List Token) (w' : Walk), Mid S x0 s' (c ++ c1) w' → s'.tags = [] →
      s'.states = [] → w'.items = w.items → WalkIn w' → Q () s') :
    wp (skipDocumentEnds S fuel) Q Any s := by
  induction fuel generalizing s c w with
  | zero => exact wp_pfail trivial
  | succ fuel ih =>
    unfold skipDocumentEnds
    rw [wp_bind]
    apply tp_peek hm
    intro t s1 hm1 ha1 e1
    split
    next heq =>
      rw [wp_bind]
      refine tp_skip (w' := { items := w.items }) hm1 ha1 (by rw [heq]; rfl) ?_
      intro s2 hm2 e2
      apply ih hm2 (.inr ⟨rfl, rfl⟩) (by rw [e2, e1]; exact h1) (by rw [e2, e1]; exact h2)
      intro s' c1 w' a1 a2 a3 a4 a5
      rw [List.append_assoc] at a1
      exact hQ s' _ w' a1 a2 a3 a4 a5
    next =>
      rw [wp_pure]
      exact hQ s1 [] w (by simpa using hm1) (by rw [e1]; exact h1) (by rw [e1]; exact h2) rfl hw

end documents

/-- The invariant between calls. -/
def TInv (S : TokSrc σ) (x0 : σ) (s : PS σ) (evs : List EvData) : Prop :=
  ∃ c w, w.items = evs.flatMap itemOf ∧ Mid S x0 s c w ∧
    (s.state.inDoc = true → InDoc S x0 s c w ∧ FirstOK s) ∧
    (s.state.inDoc = false → s.tags = [] ∧ s.states = [] ∧ WalkIn w) ∧
    (s.state = .streamStart ∨ s.state = .implicitDocumentStart → w.tags = [])

theorem fresh_of_in {w : Walk} (h : WalkIn w) : w.fresh.tags = [] ∧ w.fresh.version = none := by
  unfold Walk.fresh
  rcases h with h | ⟨h1, h2⟩
  · rw [if_pos h]; exact ⟨rfl, rfl⟩
  · split <;> simp [h1, h2]

theorem post_tinv {S : TokSrc σ} {x0 : σ} {s s' : PS σ} {evs : List EvData} {c : List Token} {w : Walk} {e : Event}
    (hi : w.items = evs.flatMap itemOf) (h : Post S x0 c w e s') : TInv S x0 s' (evs ++ [e.data]) := by
  obtain ⟨c1, w', h1, h2, h3, h4⟩ := h
  refine ⟨c ++ c1, w', by rw [h2, hi]; simp, h1.mid, fun _ => ⟨h1, h4⟩, fun hn => (by rw [h3] at hn; cases hn), ?_⟩
  rintro (hs | hs) <;> rw [hs] at h3 <;> cases h3

section documents
variable {S : TokSrc σ} {x0 : σ} {s : PS σ} {n : Int} {c : List Token} {w : Walk} {evs : List EvData}

theorem tp_parseDocumentStart {fuel : Nat} {implicit : Bool} (hi : w.items = evs.flatMap itemOf) (hm : Mid S x0 s c w)
    (h1 : s.tags = []) (h2 : s.states = []) (hw : WalkIn w) (him : implicit = true → w.tags = []) :
    wp (parseDocumentStart S fuel implicit) (fun e s' => TInv S x0 s' (evs ++ [e.data])) Any s := by
  have main : ∀ (s1 : PS σ) (c1 : List Token) (w1 : Walk), w1.items = evs.flatMap itemOf → Mid S x0 s1 c1 w1 → s1.tags = [] → s1.states = [] → WalkIn w1 →
      (implicit = true → w1.tags = []) → wp (do
      let token ← peek S
      if implicit && !token.data.startsDocument then
        let _ ← processDirectives S fuel
        pushState .documentEnd
        setState .blockNode
        pure { data := .documentStart none [] true, start := token.start, stop := token.start }
      else if token.data ≠ .streamEnd then
        let start := token.start
        let (version, tags) ← processDirectives S fuel
        let token ← peek S
        if token.data = .documentStart then
          pushState .documentEnd
          setState .documentContent
          skipTok
          pure { data := .documentStart version tags false, start := start, stop := token.stop }
        else perr "did not find expected <document start>" token.start
      else
        setState .done
        skipTok
        pure { data := .streamEnd, start := token.start, stop := token.stop } : PM σ Event)
      (fun e s' => TInv S x0 s' (evs ++ [e.data])) Any s1 := by
    intro s1 c1 w1 hi hm h1 h2 hw him
    rw [wp_bind]
    apply tp_peek hm
    intro t s2 hm2 ha2 e2
    have e2t : s2.tags = [] := by rw [e2]; exact h1
    have e2s : s2.states = [] := by rw [e2]; exact h2
    split
    next hc =>
      simp only [Bool.and_eq_true, Bool.not_eq_true'] at hc
      rw [wp_bind]
      apply tp_processDirectives_none fuel hm2 ha2 hc.2
      intro r s3 a1 a2 a3
      rw [wp_bind, wp_pushState, wp_bind, wp_setState, wp_pure]
      have hin : InDoc S x0 ({ s3 with states := .documentEnd :: s3.states, state := .blockNode } : PS σ) (c1 ++ []) w1 := by
        refine ⟨by rw [List.append_nil]; exact mid_irrel a1 rfl rfl, ?_, ?_, hw⟩
        · rw [him hc.1]; exact a2.trans (by rw [e2t])
        · rw [a3, e2s]; intro st hst
          simp only [List.mem_singleton] at hst
          subst hst; exact ⟨rfl, rfl⟩
      refine post_tinv (s := s3) hi (post_plain hin rfl rfl rfl)
    next hc =>
      split
      next =>
        rw [wp_bind]
        obtain ⟨hf1, hf2⟩ := fresh_of_in hw
        apply tp_processDirectives fuel hm2 (by rw [e2t, hf1]) hf2 hf1
        rintro r s3 c3 w3 a1 a2 rfl a4 a5
        simp only
        rw [wp_bind]
        apply tp_peek a1
        intro t4 s4 hm4 ha4 e4
        split
        next heq =>
          rw [wp_bind, wp_pushState, wp_bind, wp_setState, wp_bind]
          have hst : w3.step t4.data = some { w3.fresh with opened := true, items := w3.fresh.items ++ [.doc w3.fresh.version w3.fresh.tags] } := by
            rw [heq]; rfl
          refine tp_skip (mid_irrel hm4 (by rfl) (by rfl)) (by exact ha4) hst ?_
          intro s5 hm5 e5
          rw [wp_pure]
          have hin : InDoc S x0 s5 (c1 ++ (c3 ++ [t4])) { w3.fresh with opened := true, items := w3.fresh.items ++ [.doc w3.fresh.version w3.fresh.tags] } := by
            refine ⟨by rw [← List.append_assoc]; exact hm5, ?_, ?_, .inl rfl⟩
            · rw [e5]; simp only; rw [e4]; exact a2
            · rw [e5]; simp only; rw [e4]; simp only; rw [a4, e2s]
              intro st hst
              simp only [List.mem_singleton] at hst
              subst hst; exact ⟨rfl, rfl⟩
          refine ⟨c1 ++ (c3 ++ [t4]), _, ?_, hin.mid, fun _ => ⟨hin, first_no (by rw [e5]; rfl)⟩, fun hn => ?_, ?_⟩
          · simp only [fresh_items, a5, hi, List.flatMap_append, List.flatMap_cons, List.flatMap_nil, itemOf, List.append_nil]
          · rw [e5] at hn; cases hn
          · rw [e5]; rintro (hs | hs) <;> cases hs
        next => exact wp_pfail trivial
      next hse =>
        rw [wp_bind, wp_setState, wp_bind]
        have hd : t.data = .streamEnd := Decidable.not_not.mp hse
        refine tp_skip (mid_irrel hm2 (by rfl) (by rfl)) (by exact ha2) (step_neutral w1 (by rw [hd]; rfl)) ?_
        intro s5 hm5 e5
        rw [wp_pure]
        refine ⟨_, w1, by simp [hi, itemOf], hm5, fun hn => ?_, fun _ => ⟨by rw [e5]; exact e2t, by rw [e5]; exact e2s, hw⟩, ?_⟩
        · rw [e5] at hn; cases hn
        · rw [e5]; rintro (hs | hs) <;> cases hs
  unfold parseDocumentStart
  cases implicit
  · simp only [Bool.not_false, if_true]
    rw [wp_bind]
    apply tp_skipDocumentEnds fuel hm hw h1 h2
    intro s1 c1 w1 a1 a2 a3 a4 a5
    exact main s1 _ w1 (by rw [a4, hi]) a1 a2 a3 a5 (by simp)
  · exact main s c w hi hm h1 h2 hw him

theorem tp_parseDocumentContent (h : InDoc S x0 s (c ++ []) w) :
    wp (parseDocumentContent S n) (Post S x0 c w) Any s := by
  unfold parseDocumentContent
  rw [wp_bind]
  apply td_peek h
  intro t s2 h2 ha2
  split
  · rw [wp_bind]
    apply td_popState h2
    intro s3 h3 a b _
    exact tp_empty _ h3 a b
  · exact tp_parseNode h2

theorem tp_parseDocumentEnd (hi : w.items = evs.flatMap itemOf) (h : InDoc S x0 s c w) (hs : s.states = []) :
    wp (parseDocumentEnd S) (fun e s' => TInv S x0 s' (evs ++ [e.data])) Any s := by
  unfold parseDocumentEnd
  rw [wp_bind]
  apply tp_peek h.mid
  intro t s2 hm2 ha2 e2
  split
  next heq =>
    rw [wp_bind]
    refine tp_skip (w' := { items := w.items }) hm2 ha2 (by rw [heq]; rfl) ?_
    intro s3 hm3 e3
    rw [wp_bind, wp_setTags, wp_bind, wp_setState, wp_pure]
    refine ⟨_, { items := w.items }, by simp [hi, itemOf], mid_irrel hm3 (by rfl) (by rfl), fun hn => (by cases hn),
      fun _ => ⟨rfl, by rw [e3]; simp only; rw [e2]; exact hs, .inr ⟨rfl, rfl⟩⟩, ?_⟩
    rintro (hs | hs) <;> cases hs
  next =>
    rw [wp_bind, wp_setTags, wp_bind, wp_setState, wp_pure]
    refine ⟨c, w, by simp [hi, itemOf], mid_irrel hm2 (by rfl) (by rfl), fun hn => (by cases hn),
      fun _ => ⟨rfl, by simp only; rw [e2]; exact hs, h.wf⟩, ?_⟩
    rintro (hs | hs) <;> cases hs

theorem tp_parseStreamStart (hi : w.items = evs.flatMap itemOf) (hm : Mid S x0 s c w)
    (h1 : s.tags = []) (h2 : s.states = []) (hw : WalkIn w) (him : w.tags = []) :
    wp (parseStreamStart S) (fun e s' => TInv S x0 s' (evs ++ [e.data])) Any s := by
  unfold parseStreamStart
  rw [wp_bind]
  apply tp_peek hm
  intro t s2 hm2 ha2 e2
  split
  next enc heq =>
    rw [wp_bind, wp_setState, wp_bind]
    refine tp_skip (mid_irrel hm2 (by rfl) (by rfl)) (by exact ha2) (step_neutral w (by rw [heq]; rfl)) ?_
    intro s3 hm3 e3
    rw [wp_pure]
    refine ⟨_, w, by simp [hi, itemOf], hm3, fun hn => ?_,
      fun _ => ⟨by rw [e3]; simp only; rw [e2]; exact h1, by rw [e3]; simp only; rw [e2]; exact h2, hw⟩, fun _ => him⟩
    rw [e3] at hn; cases hn
  next => exact wp_pfail trivial

/-- Every call preserves the invariant; the event shows what the walk saw. -/
theorem tp_stateMachine (fuel : Nat) (h : TInv S x0 s evs) {g : Cfg} (hg : PInv s g) :
    wp (stateMachine S n fuel) (fun e s' => TInv S x0 s' (evs ++ [e.data])) Any s := by
  obtain ⟨c, w, hi, hm, hin, hout, hstart⟩ := h
  have lift : ∀ {m : PM σ Event}, wp m (Post S x0 c w) Any s → wp m (fun e s' => TInv S x0 s' (evs ++ [e.data])) Any s :=
    fun hx => wp_mono hx (fun e s' hp => post_tinv (s := s) hi hp) (fun _ h => h)
  unfold wp stateMachine
  cases hst : s.state with
  | streamStart =>
    obtain ⟨a, b, d⟩ := hout (by rw [hst]; rfl)
    exact tp_parseStreamStart hi hm a b d (hstart (.inl hst))
  | implicitDocumentStart =>
    obtain ⟨a, b, d⟩ := hout (by rw [hst]; rfl)
    exact tp_parseDocumentStart hi hm a b d (fun _ => hstart (.inr hst))
  | documentStart =>
    obtain ⟨a, b, d⟩ := hout (by rw [hst]; rfl)
    exact tp_parseDocumentStart hi hm a b d (by simp)
  | documentEnd =>
    obtain ⟨a, b⟩ := hin (by rw [hst]; rfl)
    refine tp_parseDocumentEnd hi a ?_
    have hr := hg.rel
    rw [hst] at hr
    generalize hK : s.states = K at hr
    cases hr with
    | docEnd => rfl
    | inner ht _ => cases ht
  | done => trivial
  | documentContent =>
    obtain ⟨a, b⟩ := hin (by rw [hst]; rfl)
    exact lift (tp_parseDocumentContent (c := c) (by rw [List.append_nil]; exact a))
  | blockNode =>
    obtain ⟨a, b⟩ := hin (by rw [hst]; rfl)
    exact lift (tp_parseNode (c := c) (c0 := []) (by rw [List.append_nil]; exact a))
  | blockSequenceFirstEntry =>
    obtain ⟨a, b⟩ := hin (by rw [hst]; rfl)
    exact lift (tp_blockSequenceEntry (c := c) (c0 := []) (by rw [List.append_nil]; exact a) (fun _ => b (by rw [hst]; rfl)))
  | blockSequenceEntry =>
    obtain ⟨a, b⟩ := hin (by rw [hst]; rfl)
    exact lift (tp_blockSequenceEntry (c := c) (c0 := []) (by rw [List.append_nil]; exact a) (by simp))
  | indentlessSequenceEntry =>
    obtain ⟨a, b⟩ := hin (by rw [hst]; rfl)
    exact lift (tp_indentless (c := c) (c0 := []) (by rw [List.append_nil]; exact a))
  | blockMappingFirstKey =>
    obtain ⟨a, b⟩ := hin (by rw [hst]; rfl)
    exact lift (tp_blockMappingKey (c := c) (c0 := []) (by rw [List.append_nil]; exact a) (fun _ => b (by rw [hst]; rfl)))
  | blockMappingKey =>
    obtain ⟨a, b⟩ := hin (by rw [hst]; rfl)
    exact lift (tp_blockMappingKey (c := c) (c0 := []) (by rw [List.append_nil]; exact a) (by simp))
  | blockMappingValue =>
    obtain ⟨a, b⟩ := hin (by rw [hst]; rfl)
    exact lift (tp_blockMappingValue (c := c) (c0 := []) (by rw [List.append_nil]; exact a))
  | flowSequenceFirstEntry =>
    obtain ⟨a, b⟩ := hin (by rw [hst]; rfl)
    exact lift (tp_flowSequenceEntry (c := c) (c0 := []) (by rw [List.append_nil]; exact a) (fun _ => b (by rw [hst]; rfl)))
  | flowSequenceEntry =>
    obtain ⟨a, b⟩ := hin (by rw [hst]; rfl)
    exact lift (tp_flowSequenceEntry (c := c) (c0 := []) (by rw [List.append_nil]; exact a) (by simp))
  | flowSequenceEntryMappingKey =>
    obtain ⟨a, b⟩ := hin (by rw [hst]; rfl)
    exact lift (tp_fseKey (c := c) (c0 := []) (by rw [List.append_nil]; exact a))
  | flowSequenceEntryMappingValue =>
    obtain ⟨a, b⟩ := hin (by rw [hst]; rfl)
    exact lift (tp_fseValue (c := c) (c0 := []) (by rw [List.append_nil]; exact a))
  | flowSequenceEntryMappingEnd =>
    obtain ⟨a, b⟩ := hin (by rw [hst]; rfl)
    exact lift (tp_fseEnd (c := c) (c0 := []) (by rw [List.append_nil]; exact a))
  | flowMappingFirstKey =>
    obtain ⟨a, b⟩ := hin (by rw [hst]; rfl)
    exact lift (tp_flowMappingKey (c := c) (c0 := []) (by rw [List.append_nil]; exact a) (fun _ => b (by rw [hst]; rfl)))
  | flowMappingKey =>
    obtain ⟨a, b⟩ := hin (by rw [hst]; rfl)
    exact lift (tp_flowMappingKey (c := c) (c0 := []) (by rw [List.append_nil]; exact a) (by simp))
  | flowMappingValue =>
    obtain ⟨a, b⟩ := hin (by rw [hst]; rfl)
    exact lift (tp_flowMappingValue (c := c) (c0 := []) (by rw [List.append_nil]; exact a))
  | flowMappingEmptyValue =>
    obtain ⟨a, b⟩ := hin (by rw [hst]; rfl)
    exact lift (tp_flowMappingValue (c := c) (c0 := []) (by rw [List.append_nil]; exact a))

end documents
end LibYaml
