import Verif.Spec.Reread
import Verif.Proofs.CleanTokens
import Verif.Proofs.DumpLoad

/-!
# Events of the parser can be emitted

From the grammar of lexemes over the grammar of tokens to the conditions of the round trip through the emitter.
-/

namespace LibYaml

open Spec

/-! ### Tokens -/

/-- What the scanner ensures for its tokens. -/
def GoodTok : TokData → Prop
  | .scalar v st => (∀ c ∈ v, UChar c) ∧ st ≠ .any ∧ (st = .plain → v ≠ [])
  | .tagDirective d => Handle d.handle ∧ CText d.pfx
  | .alias a => Name a
  | .anchor a => Name a
  | .tag _ s => CText s
  | _ => True

theorem lexeme_good {flow : Bool} {indent : Int} {col : Nat} {cs : List Nat} {d : TokData} {mid rest : List Nat} {line : Bool}
    (h : Lexeme flow indent col cs d mid rest line) (hc : Chars cs) : GoodTok d := by
  cases h <;> try trivial
  case tagDirective _ h =>
    cases h with
    | mk _ _ _ _ _ hh _ _ _ _ hu _ _ => exact ⟨hh, upToNul_clean (uri_storable hu)⟩
  case anchor h => exact ⟨h.2.1, h.2.2.1⟩
  case «alias» h => exact ⟨h.2.1, h.2.2.1⟩
  case tag h => exact (tagText_clean h.1).2
  case literal _ h => exact ⟨chars_blockScalar h hc.tail, nofun, nofun⟩
  case folded _ h => exact ⟨chars_blockScalar h hc.tail, nofun, nofun⟩
  case single h => exact ⟨chars_quoted h hc.tail, nofun, nofun⟩
  case double h => exact ⟨chars_quoted h hc.tail, nofun, nofun⟩
  case plain h1 _ _ h2 => exact ⟨chars_plain h2 hc, nofun, fun _ => plain_ne h1 h2 (by assumption)⟩

theorem lexed_good {T : List Nat} {ls : List Lx} {u : List Nat} {lv : Nat} {key : Bool} (h : Lexed T ls u lv key) (hT : Chars T) : ∀ x ∈ ls, GoodTok x.token.data := by
  induction h with
  | start => simp
  | @next ls u lv key w v x mid rest key' kd line ls' d _ _ he _ hx _ hm _ _ ih =>
    intro x hmem
    rcases List.mem_append.mp hmem with hmem | hmem
    · obtain ⟨y, hy, he⟩ := marked_mem hm hmem
      rw [← he]
      exact ih y hy
    · simp only [List.mem_singleton] at hmem
      subst hmem
      rw [he] at hT
      exact lexeme_good hx hT.right.right

theorem layout_good {T : List Nat} {ls : List Lx} {u : List Nat} {lv : Nat} {key : Bool} (h : Lexed T ls u lv key) (hT : Chars T) {cols : List Nat} :
    ∀ t ∈ layout cols ls, GoodTok t.data := by
  intro t ht
  by_cases ho : ofText t = true
  · have : t ∈ (layout cols ls).filter ofText := List.mem_filter.mpr ⟨ht, ho⟩
    rw [layout_ofText h.ofText] at this
    obtain ⟨x, hx, rfl⟩ := List.mem_map.mp this
    exact lexed_good h hT x hx
  · unfold ofText at ho
    split at ho
    · rename_i hd; rw [hd]; trivial
    · rename_i hd; rw [hd]; trivial
    · rename_i hd; rw [hd]; trivial
    · rename_i hd; rw [hd]; trivial
    · exact absurd rfl ho

/-! ### Events -/

/-- Anchor and tag of a node. -/
def PropsGood (a t : Option Text) : Prop := (∀ x, a = some x → Name x) ∧ ∀ x, t = some x → CText x

/-- What parser and scanner ensure for events. -/
def GoodEv : EvData → Prop
  | .documentStart v ts _ => (∀ x, v = some x → GoodVersion x) ∧ (∀ d ∈ ts, Handle d.handle ∧ CText d.pfx) ∧ (ts.map TagDir.handle).Nodup
  | .alias a => Name a
  | .scalar a t v p q _ => PropsGood a t ∧ (∀ c ∈ v, UChar c) ∧ (p = true ∨ q = true → t = none ∨ t = some [] ∨ t = some [0x21]) ∧
      (t = none → p = true ∨ q = true)
  | .sequenceStart a t i _ => PropsGood a t ∧ (i = true → t = none ∨ t = some [])
  | .mappingStart a t i _ => PropsGood a t ∧ (i = true → t = none ∨ t = some [])
  | _ => True

/-- The prefixes can be stored. -/
def GoodPfx (tags : List TagDir) : Prop := ∀ d ∈ tags, CText d.pfx

theorem predeclared_pfx : GoodPfx predeclared := by
  intro d hd c hc
  simp only [predeclared, List.mem_cons, List.not_mem_nil, or_false] at hd
  have : c ≠ 0 ∧ c < 0x80 := by
    rcases hd with rfl | rfl
    · exact (by decide : ∀ c ∈ lit ['!'], c ≠ 0 ∧ c < 0x80) c hc
    · revert c
      decide
  exact ⟨this.1, .inl (by omega)⟩

theorem expand_good {tags : List TagDir} (ht : GoodPfx tags) {h s t : Text} (hs : CText s) (he : expand tags h s = some t) : CText t := by
  unfold expand at he
  split at he
  · cases he
    exact hs
  · cases hf : (tags ++ predeclared).find? fun d => d.handle == h with
    | none => rw [hf] at he; cases he
    | some d =>
      rw [hf] at he
      cases he
      have hd := List.mem_of_find?_eq_some hf
      intro c hc
      rcases List.mem_append.mp hc with hc | hc
      · rcases List.mem_append.mp hd with hd | hd
        · exact ht d hd c hc
        · exact predeclared_pfx d hd c hc
      · exact hs c hc

theorem properties_good {tags : List TagDir} (ht : GoodPfx tags) {p : List TokData} {a t : Option Text} (h : Properties tags p a t)
    (hp : ∀ d ∈ p, GoodTok d) : PropsGood a t := by
  cases h with
  | none => exact ⟨nofun, nofun⟩
  | anchor a => exact ⟨fun x hx => by cases hx; exact hp (.anchor a) (by simp), nofun⟩
  | @tag h s _ he => exact ⟨nofun, fun x hx => by cases hx; exact expand_good ht (hp (.tag h s) (by simp)) he⟩
  | @anchorTag a h s _ he =>
    exact ⟨fun x hx => by cases hx; exact hp (.anchor a) (by simp), fun x hx => by cases hx; exact expand_good ht (hp (.tag h s) (by simp)) he⟩
  | @tagAnchor a h s _ he =>
    exact ⟨fun x hx => by cases hx; exact hp (.anchor a) (by simp), fun x hx => by cases hx; exact expand_good ht (hp (.tag h s) (by simp)) he⟩

theorem untagged_cases {t : Option Text} (h : untagged t = true) : t = none ∨ t = some [] := by
  unfold untagged at h
  cases t with
  | none => exact .inl rfl
  | some x => simp_all

theorem absent_good : GoodEv absent := ⟨⟨nofun, nofun⟩, nofun, fun _ => .inl rfl, fun _ => .inl rfl⟩

theorem gram_good {v : Variant} {tags : List TagDir} (ht : GoodPfx tags) {nt : Nt} {w : List TokData} {e : List EvData} (h : Gram v tags nt w e)
    (hw : ∀ d ∈ w, GoodTok d) : ∀ x ∈ e, GoodEv x := by
  induction h with
  | «alias» a =>
    intro x hx
    rw [List.mem_singleton.mp hx]
    exact hw (.alias a) (by simp)
  | @scalar b i p a t x style hp =>
    intro y hy
    rw [List.mem_singleton.mp hy]
    have := hw (.scalar x style) (by simp)
    refine ⟨properties_good ht hp fun d hd => hw d (by simp [hd]), this.1, ?_, ?_⟩
    · simp only [plainOk, quotedOk]
      cases t <;> simp_all [lit]
    · rintro rfl
      cases style <;> simp [plainOk, quotedOk]
  | empty hp =>
    intro y hy
    rw [List.mem_singleton.mp hy]
    refine ⟨properties_good ht hp hw, nofun, fun h => ?_, by rintro rfl; exact .inl rfl⟩
    rcases h with h | h
    · exact (untagged_cases h).imp_right .inl
    · cases h
  | flowSequence hp _ ih | blockSequence hp _ ih =>
    intro y hy
    simp only [List.cons_append, List.mem_cons, List.mem_append, List.not_mem_nil, or_false] at hy
    rcases hy with rfl | hy | rfl
    · exact ⟨properties_good ht hp fun d hd => hw d (by simp [hd]), untagged_cases⟩
    · exact ih (fun d hd => hw d (by simp [hd])) y hy
    · trivial
  | flowMapping hp _ ih | blockMapping hp _ ih =>
    intro y hy
    simp only [List.cons_append, List.mem_cons, List.mem_append, List.not_mem_nil, or_false] at hy
    rcases hy with rfl | hy | rfl
    · exact ⟨properties_good ht hp fun d hd => hw d (by simp [hd]), untagged_cases⟩
    · exact ih (fun d hd => hw d (by simp [hd])) y hy
    · trivial
  | indentless hp _ _ ih =>
    intro y hy
    simp only [List.cons_append, List.mem_cons, List.mem_append, List.not_mem_nil, or_false] at hy
    rcases hy with rfl | hy | rfl
    · exact ⟨properties_good ht hp fun d hd => hw d (by simp [hd]), untagged_cases⟩
    · exact ih (fun d hd => hw d (by simp [hd])) y hy
    · trivial
  | missing | noValue =>
    intro y hy
    rw [List.mem_singleton.mp hy]
    exact absent_good
  | present _ ih | itemsOne _ ih | item _ ih | fpairsOne _ ih => exact ih hw
  | value _ ih => exact ih fun d hd => hw d (by simp [hd])
  | entriesNil | pairsNil | itemsNil | fpairsNil => exact nofun
  | entriesCons _ _ ih1 ih2 | itemsCons _ _ ih1 ih2 | fpairsCons _ _ ih1 ih2 | pair _ _ ih1 ih2 =>
    intro y hy
    rcases List.mem_append.mp hy with hy | hy
    · exact ih1 (fun d hd => hw d (by simp [hd])) y hy
    · exact ih2 (fun d hd => hw d (by simp [hd])) y hy
  | pairsCons _ _ _ ih1 ih2 ih3 =>
    intro y hy
    rcases List.mem_append.mp hy with hy | hy
    · rcases List.mem_append.mp hy with hy | hy
      · exact ih1 (fun d hd => hw d (by simp [hd])) y hy
      · exact ih2 (fun d hd => hw d (by simp [hd])) y hy
    · exact ih3 (fun d hd => hw d (by simp [hd])) y hy
  | pairsValue _ _ _ ih1 ih2 =>
    intro y hy
    simp only [List.cons_append, List.mem_cons, List.mem_append] at hy
    rcases hy with rfl | hy | hy
    · exact absent_good
    · exact ih1 (fun d hd => hw d (by simp [hd])) y hy
    · exact ih2 (fun d hd => hw d (by simp [hd])) y hy
  | itemsEmptyKey =>
    intro y hy
    simp only [List.mem_cons, List.not_mem_nil, or_false] at hy
    rcases hy with rfl | rfl | rfl | rfl
    · exact ⟨⟨nofun, nofun⟩, fun _ => .inl rfl⟩
    · exact absent_good
    · exact absent_good
    · trivial
  | itemPair _ _ ih1 ih2 =>
    intro y hy
    simp only [List.cons_append, List.mem_cons, List.mem_append, List.not_mem_nil, or_false] at hy
    rcases hy with rfl | (hy | hy) | rfl
    · exact ⟨⟨nofun, nofun⟩, fun _ => .inl rfl⟩
    · exact ih1 (fun d hd => hw d (by simp [hd])) y hy
    · exact ih2 (fun d hd => hw d (by simp [hd])) y hy
    · trivial
  | itemPairNoKey _ _ ih =>
    intro y hy
    simp only [List.cons_append, List.mem_cons, List.mem_append, List.not_mem_nil, or_false] at hy
    rcases hy with rfl | rfl | hy | rfl
    · exact ⟨⟨nofun, nofun⟩, fun _ => .inl rfl⟩
    · exact absent_good
    · exact ih (fun d hd => hw d (by simp [hd])) y hy
    · trivial
  | itemPairLost _ _ _ ih =>
    intro y hy
    simp only [List.cons_append, List.mem_cons, List.mem_append, List.not_mem_nil, or_false] at hy
    rcases hy with rfl | rfl | hy | rfl
    · exact ⟨⟨nofun, nofun⟩, fun _ => .inl rfl⟩
    · exact absent_good
    · exact ih (fun d hd => hw d (by simp [hd])) y hy
    · trivial
  | pairKey _ ih =>
    intro y hy
    rcases List.mem_append.mp hy with hy | hy
    · exact ih hw y hy
    · rw [List.mem_singleton.mp hy]
      exact absent_good

theorem directives_good {ds : List TokData} {version : Option Version} {tags : List TagDir} (h : Directives ds version tags) (hd : ∀ d ∈ ds, GoodTok d) :
    GoodPfx tags ∧ ∀ i, GoodEv (.documentStart version tags i) := by
  obtain ⟨_, _, h3, rfl, h5⟩ := h
  have key : ∀ t ∈ tagsOf ds, Handle t.handle ∧ CText t.pfx := by
    intro t ht
    unfold tagsOf at ht
    obtain ⟨d, h1, h2⟩ := List.mem_filterMap.mp ht
    split at h2
    · cases h2
      exact hd _ h1
    · cases h2
  refine ⟨fun d h => (key d h).2, fun i => ⟨fun x hx => ?_, key, h5⟩⟩
  rcases h3 x hx with rfl | rfl
  · exact ⟨rfl, .inl rfl⟩
  · exact ⟨rfl, .inr rfl⟩

theorem docs_good {v : Variant} {w : List TokData} {e : List EvData} (h : Docs v w e) (hw : ∀ d ∈ w, GoodTok d) : ∀ x ∈ e, GoodEv x := by
  induction h with
  | done =>
    intro x hx
    rw [List.mem_singleton.mp hx]
    trivial
  | doc k hd hg _ ih =>
    obtain ⟨h1, h2⟩ := directives_good hd fun d h => hw d (by simp [h])
    intro x hx
    simp only [List.cons_append, List.mem_cons, List.mem_append] at hx
    rcases hx with rfl | hx | rfl | hx
    · exact h2 false
    · exact gram_good h1 hg (fun d h => hw d (by simp [h])) x hx
    · trivial
    · exact ih (fun d h => hw d (by simp [h])) x hx

theorem stream_good {v : Variant} {w : List TokData} {e : List EvData} (h : Spec.Stream v w e) (hw : ∀ d ∈ w, GoodTok d) : ∀ x ∈ e, GoodEv x := by
  cases h with
  | explicit enc h =>
    intro x hx
    rcases List.mem_cons.mp hx with rfl | hx
    · trivial
    · exact docs_good h (fun d h => hw d (by simp [h])) x hx
  | implicit enc k hg h =>
    intro x hx
    simp only [List.cons_append, List.mem_cons, List.mem_append] at hx
    rcases hx with rfl | rfl | hx | rfl | hx
    · trivial
    · exact ⟨nofun, nofun, List.nodup_nil⟩
    · exact gram_good (fun d h => by cases h) hg (fun d h => hw d (by simp [h])) x hx
    · trivial
    · exact docs_good h (fun d h => hw d (by simp [h])) x hx

/-- The document that vanishes needs an empty tag. -/
theorem stream_stays {v : Variant} {w : List TokData} {e : List EvData} (h : Spec.Stream v w e) (hw : ∀ d ∈ w, GoodTok d) (hv : Vanishes e) :
    ∃ x ∈ e, tagOf x = some [] := by
  obtain ⟨enc, t, q, st, r, hst, rfl⟩ := hv
  generalize hx : EvData.streamStart enc :: _ = e at h
  cases h with
  | explicit enc' h =>
    injection hx with _ hx
    generalize hy : EvData.documentStart none [] true :: _ = e' at hx
    cases h with
    | done => rw [← hy] at hx; cases hx
    | doc => rw [← hy] at hx; cases hx
  | @implicit n en _ er enc' k hg h =>
    simp only [List.cons_append, List.cons.injEq] at hx
    obtain ⟨_, _, hx⟩ := hx
    have hn : ∀ d ∈ n, GoodTok d := fun d h => hw d (by simp [h])
    refine ⟨.scalar none t [] true q st, by simp [← hx], ?_⟩
    show t = some []
    cases hg with
    | «alias» => cases hx
    | scalar x style hp =>
      rw [List.singleton_append] at hx
      injection hx with hx _
      injection hx with _ _ h3 _ _ h6
      have := hn (.scalar x style) (by simp)
      rcases hst with rfl | rfl
      · exact absurd h6.symm this.2.1
      · exact absurd h3.symm (this.2.2 h6.symm)
    | empty hp hne =>
      rw [List.singleton_append] at hx
      injection hx with hx _
      injection hx with h1 h2 _ h4 _ _
      rw [h2]
      rcases untagged_cases h4.symm with h | h
      · cases hp <;> simp_all
      · exact h
    | flowSequence => cases hx
    | flowMapping => cases hx
    | blockSequence => cases hx
    | blockMapping => cases hx

/-! ### Conditions of the round trip -/

theorem under_mem {w : List EvData} {T : List TagDir} {e : EvData} (h : Under w T e) : e ∈ w := by
  obtain ⟨a, v, i, r, rfl, rfl | ⟨b, c, rfl, _⟩⟩ := h <;> simp

theorem keepable_readable {w : List EvData} (hs : GStream w) (hg : ∀ e ∈ w, GoodEv e) (hv : Vanishes w → ∃ x ∈ w, tagOf x = some []) (hk : Keepable w) (canonical : Bool) :
    Readable canonical w := by
  refine ⟨hs, fun e he => ?_, fun T e h => ?_, fun _ h => ?_⟩
  · have h1 := hg e he
    have h2 := hk.tags e he
    cases e with
    | documentStart v ts i => exact ⟨h1.1, fun d hd => ⟨(h1.2.1 d hd).1, hk.prefixes v ts i he d hd⟩, h1.2.2⟩
    | «alias» a => exact h1
    | scalar a t v p q st => exact ⟨h1.1.1, fun _ => h2, h1.2.2.2⟩
    | sequenceStart a t i st => exact ⟨h1.1.1, fun _ => h2⟩
    | mappingStart a t i st => exact ⟨h1.1.1, fun _ => h2⟩
    | _ => trivial
  · have h1 := hg e (under_mem h)
    have h2 := hk.behind T e
    have text : ∀ {x : Text}, CText x → ∀ c ∈ x, Storable c ∧ c ≠ 0 := fun h c hc => ⟨(h c hc).2, (h c hc).1⟩
    cases e with
    | documentStart v ts i => exact fun d hd => text (h1.2.1 d hd).2
    | scalar a t v p q st =>
      exact ⟨fun x hx => ⟨text (h1.1.2 x hx), h2 x h hx⟩, h1.2.1, by rintro rfl; exact hk.folded a t v p q (under_mem h)⟩
    | sequenceStart a t i st => exact fun x hx => ⟨text (h1.1.2 x hx), h2 x h hx⟩
    | mappingStart a t i st => exact fun x hx => ⟨text (h1.1.2 x hx), h2 x h hx⟩
    | _ => trivial
  · obtain ⟨x, h1, h2⟩ := hv h
    exact hk.tags x h1 h2

theorem keepable_honest {w : List EvData} (hg : ∀ e ∈ w, GoodEv e) (hk : Keepable w) : ∀ e ∈ w, Honest e := by
  intro e he
  have h1 := hg e he
  have h2 := hk.tags e he
  cases e with
  | scalar a t v p q st =>
    intro h
    rcases h1.2.2.1 h with rfl | rfl | rfl
    · rfl
    · exact absurd rfl h2
    · rfl
  | sequenceStart a t i st =>
    intro h
    rcases h1.2 h with rfl | rfl
    · rfl
    · exact absurd rfl h2
  | mappingStart a t i st =>
    intro h
    rcases h1.2 h with rfl | rfl
    · rfl
    · exact absurd rfl h2
  | _ => trivial

/-! ### Documents -/

theorem alike_rep {w : List EvData} {d : Doc} (hr : RepData w d) (hh : ∀ e ∈ w, Honest e) {es : List Event} (h : List.Forall₂ Alike w (es.map Event.data)) :
    DocEvs es ∧ ∀ d', RepDoc es d' → SameLoaded d d' := by
  obtain ⟨w, rfl, s, b, e, A, rfl, h1, _, h2, _, h3⟩ := hr
  rw [List.forall₂_map_right_iff, List.forall₂_map_left_iff, List.cons_append] at h
  cases h with
  | @cons _ s' _ t g1 g2 =>
    obtain ⟨b', c, rfl, g3, g4⟩ := forall2_split g2
    cases g4 with
    | @cons _ e' _ _ g5 g6 =>
      cases g6
      rw [h1] at g1
      rw [h2] at g5
      generalize hx : s'.data = x at g1
      generalize hy : e'.data = y at g5
      cases g1 with
      | documentStart v ts i i' =>
        cases g5 with
        | documentEnd j j' =>
          obtain ⟨ns', k1, k2⟩ := rep_alike h3 (fun e he => hh _ (by simp only [List.map_append, List.map_cons]; exact List.mem_append_left _ (.tail _ (List.mem_map_of_mem he)))) g3
          have hg' := rep_grammar k1
          refine ⟨repDoc_word (d := { nodes := ns', version := d.version, tags := d.tags, startImplicit := i', endImplicit := j', start := s'.start, stop := e'.stop })
            ⟨s', b', e', A, rfl, hx, rfl, hy, rfl, k1⟩, ?_⟩
          rintro d' ⟨s2, b2, e2, A2, heq, m1, _, m2, _, m3⟩
          rw [List.cons_append] at heq
          obtain ⟨q1, q2⟩ := List.cons.inj heq
          obtain ⟨q3, q4⟩ := List.append_inj' q2 rfl
          injection q4 with q4
          subst q1 q3 q4
          rw [hx] at m1
          injection m1 with m4 m5 m6
          refine ⟨m4, m5, ?_⟩
          obtain ⟨t1, n1, n2⟩ := (compose_iff hg' ns').mpr ⟨_, k1⟩
          obtain ⟨t2, n3, n4⟩ := (compose_iff hg' d'.nodes).mpr ⟨_, m3⟩
          rw [n1] at n3
          injection n3 with n3
          subst n3
          rw [← n4, n2]
          exact k2

theorem alike_reps {ws : List (List EvData)} {ds : List Doc} (h : List.Forall₂ RepData ws ds) (hh : ∀ e ∈ ws.flatten, Honest e) {es : List Event}
    (ha : List.Forall₂ Alike ws.flatten (es.map Event.data)) :
    ∃ wss : List (List Event), es = wss.flatten ∧ List.Forall₂ (fun d w => DocEvs w ∧ ∀ d', RepDoc w d' → SameLoaded d d') ds wss := by
  induction h generalizing es with
  | nil =>
    generalize hx : es.map Event.data = x at ha
    cases ha
    rw [List.map_eq_nil_iff] at hx
    exact ⟨[], hx, .nil⟩
  | @cons w d ws ds hw _ ih =>
    rw [List.flatten_cons] at ha hh
    rw [List.forall₂_map_right_iff] at ha
    obtain ⟨e1, e2, rfl, h1, h2⟩ := forall2_split ha
    obtain ⟨wss, rfl, h3⟩ := ih (fun e he => hh e (List.mem_append_right _ he)) (List.forall₂_map_right_iff.mpr h2)
    exact ⟨e1 :: wss, rfl, .cons (alike_rep hw (fun e he => hh e (List.mem_append_left _ he)) (List.forall₂_map_right_iff.mpr h1)) h3⟩

end LibYaml
