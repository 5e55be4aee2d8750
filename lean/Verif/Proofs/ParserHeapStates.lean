import Verif.Proofs.ParserHeapNodes
import Verif.Proofs.ParserEnd

/-!
# The parser on the heap: the contents of nodes, and collections
-/

namespace LibYaml

open Spec

set_option linter.unusedSectionVars false

variable {ρ σ α α' β β' : Type} [SrcMem ρ] [SrcLink ρ σ] [Strict]

theorem TokenAt.starts {t : Token} {ht : HToken} {x : Blocks} (h : TokenAt t ht x) : ht.start = t.start := by
  obtain ⟨T, h1, h2, h3, h4, h5⟩ := h; exact h4

theorem TokenAt.stops {t : Token} {ht : HToken} {x : Blocks} (h : TokenAt t ht x) : ht.stop = t.stop := by
  obtain ⟨T, h1, h2, h3, h4, h5⟩ := h; exact h5

section
variable {A : Prop} {base : Nat → Option Obj} {J : List TagDir → Prop} {P : HPS ρ → PS σ → Blocks → Prop} {c : Option (HToken × Token)} {l : Blocks}
  {Q : β' → β → HPS ρ → PS σ → Blocks → Prop}

theorem hrel_level {H : HSrc ρ} {S : TokSrc σ} (hS : Link H S) {maxLevel : Int} {m n : Mark} :
    HRel A base (St AnyDirs c []) (hCheckLevel H maxLevel m n) (checkLevel (cutSrc S) maxLevel m n) (fun _ _ p s b => St AnyDirs c [] p s b) := by
  intro p s b fr h hp e hu hf
  have hp' := hp
  obtain ⟨b0, ho, hc, hb⟩ := hp
  have ho' := ho
  obtain ⟨x1, x2, x3, x4, x5, k1, k2, k3, k4, k5, k6, k8, k9, k10⟩ := ho
  unfold hw hCheckLevel checkLevel
  simp only [cutSrc, hS.depth k5]
  by_cases hlt : (S.depth s.src : Int) < maxLevel
  · simp only [if_pos hlt]
    exact ⟨(), s, b, if_pos hlt, hp', e⟩
  · simp only [if_neg hlt]
    exact ⟨⟨b0, ho'.left, e.perm (by blocks_by hb)⟩, .inl (if_neg hlt)⟩

/-- The anchor and the tag of a node, and their blocks. -/
structure NodeProps (P : Props) (lp : HProps) (a T : Option Text) (tag : Option Text) (tp : Ptr) (x y : Blocks) : Prop where
  anchor : P.anchor = a.map cutText
  str : StrAt (a.map textBytes) lp.anchor x
  tag : tag = T.map cutText
  tstr : StrAt (T.map textBytes) tp y
  ok : TagOk T
  anc : AncOk a
  handle : lp.handle = none
  suffix : lp.suffix = none
  start : lp.start = P.start
  stop : lp.stop = P.stop

theorem NodeProps.str' {P : Props} {lp : HProps} {a T tag : Option Text} {tp : Ptr} {x y : Blocks} (h : NodeProps P lp a T tag tp x y) (hs : Strict.strict) :
    StrAt (P.anchor.map textBytes) lp.anchor x := by
  have h1 := h.anchor
  have h2 := h.str
  cases a with
  | none => rw [h1]; exact h2
  | some a => rw [h1, Option.map_some, cut_of_ctext (h.anc hs a rfl).ctext]; exact h2

theorem NodeProps.tstr' {P : Props} {lp : HProps} {a T tag : Option Text} {tp : Ptr} {x y : Blocks} (h : NodeProps P lp a T tag tp x y) (hs : Strict.strict) :
    StrAt (tag.map textBytes) tp y := by
  have h1 := h.tag
  have h2 := h.tstr
  cases T with
  | none => rw [h1]; exact h2
  | some T => rw [h1, Option.map_some, cut_of_ctext ((h.ok T rfl).2 hs)]; exact h2

theorem NodeProps.strings {P : Props} {lp : HProps} {a T tag : Option Text} {tp : Ptr} {x y : Blocks} (h : NodeProps P lp a T tag tp x y) (hs : Strict.strict) :
    (∀ x ∈ P.anchor, AnchorText x) ∧ ∀ x ∈ tag, CText x := by
  have h1 := h.anchor
  have h2 := h.tag
  constructor
  · intro x hx
    rw [h1] at hx
    cases a with
    | none => cases hx
    | some a => cases hx; rw [cut_of_ctext (h.anc hs a rfl).ctext]; exact h.anc hs a rfl
  · intro x hx
    rw [h2] at hx
    cases T with
    | none => cases hx
    | some T => cases hx; rw [cut_of_ctext ((h.ok T rfl).2 hs)]; exact (h.ok T rfl).2 hs

theorem NodeProps.legible {P : Props} {lp : HProps} {a T tag : Option Text} {tp : Ptr} {x y : Blocks} (h : NodeProps P lp a T tag tp x y) (hs : Strict.strict) :
    (∀ x ∈ P.anchor, CText x) ∧ ∀ x ∈ tag, CText x :=
  ⟨fun x hx => ((h.strings hs).1 x hx).ctext, (h.strings hs).2⟩

theorem NodeProps.frees {P : Props} {lp : HProps} {a T tag : Option Text} {tp : Ptr} {x y : Blocks} (h : NodeProps P lp a T tag tp x y) :
    Frees (freeProps lp tp) (x ++ y) :=
  frees_props (o2 := none) (o3 := none) (y := []) (z := []) h.str ⟨h.handle, rfl⟩ ⟨h.suffix, rfl⟩ h.tstr (List.Perm.refl _)

theorem str_isNone {T : Option Text} {p : Ptr} {x : Blocks} (h : StrAt (T.map textBytes) p x) : p.isNone = T.isNone := by
  cases T with
  | none => rw [h.1]; rfl
  | some t => obtain ⟨a, _, h1, _⟩ := h; rw [h1]; rfl

theorem NodeProps.isNone {P : Props} {lp : HProps} {a T tag : Option Text} {tp : Ptr} {x y : Blocks} (h : NodeProps P lp a T tag tp x y) :
    tp.isNone = tag.isNone := by
  rw [str_isNone h.tstr, h.tag]
  cases T <;> rfl

theorem NodeProps.isSome {P : Props} {lp : HProps} {a T tag : Option Text} {tp : Ptr} {x y : Blocks} (h : NodeProps P lp a T tag tp x y) :
    (lp.anchor.isSome || tp.isSome) = (P.anchor.isSome || tag.isSome) := by
  have h1 := h.isNone
  have h2 := str_isNone h.str
  rw [h.anchor]
  cases a <;> cases tag <;> cases tp <;> cases hl : lp.anchor <;> simp_all

theorem hrel_implicit {P : Props} {lp : HProps} {a T tag : Option Text} {tp : Ptr} {x y : Blocks} (h : NodeProps P lp a T tag tp x y)
    {k' : Bool → HP ρ β'} {v : PM σ β} (hk : HRel A base (St J c (x ++ y)) (k' (tag.isNone || tag == some [])) v Q) :
    HRel A base (St J c (x ++ y)) (hlift (hImplicit tp) >>= k') v Q := by
  refine hrel_readB (fun bs hh R e hin hR => ?_) hk
  have hn := h.isNone
  unfold hImplicit
  cases T with
  | none =>
    have ht := h.tag
    subst ht
    rw [if_pos (by rw [hn]; rfl)]
    exact hR
  | some t =>
    have ht := h.tag
    subst ht
    rw [if_neg (by rw [hn]; simp), hw_bind]
    refine hw_first e h.tstr (fun z hz => hin z (List.mem_append_right _ hz)) fun b r hb => ?_
    have hz := first_zero (h.ok t rfl).1 hb
    have he : (b == 0) = (((some t).map cutText).isNone || (some t).map cutText == some []) := by
      rw [Bool.eq_iff_iff]
      simp [hz]
    show R (b == 0) hh
    rw [he]
    exact hR

theorem hrel_bang {P : Props} {lp : HProps} {a T tag : Option Text} {tp : Ptr} {x y : Blocks} (h : NodeProps P lp a T tag tp x y)
    {k' : Bool → HP ρ β'} {v : PM σ β} (hk : HRel A base (St J c (x ++ y)) (k' (tag == some (lit ['!']))) v Q) :
    HRel A base (St J c (x ++ y)) (hlift (hIsBang tp) >>= k') v Q := by
  refine hrel_readB (fun bs hh R e hin hR => ?_) hk
  have hn := h.isNone
  unfold hIsBang
  cases T with
  | none =>
    have ht := h.tag
    subst ht
    rw [if_pos (by rw [hn]; rfl)]
    exact hR
  | some t =>
    have ht := h.tag
    subst ht
    rw [if_neg (by rw [hn]; simp), hw_bind]
    refine hw_cstring e h.tstr (fun z hz => hin z (List.mem_append_right _ hz)) (h.ok t rfl).1 ?_
    have he : (textBytes (cutText t) == [0x21]) = ((some t).map cutText == some (lit ['!'])) := by
      rw [Bool.eq_iff_iff]
      simp [textBytes_bang]
    show R (textBytes (cutText t) == [0x21]) hh
    rw [he]
    exact hR

theorem hrel_levelF {H : HSrc ρ} {S : TokSrc σ} (hS : Link H S) {maxLevel : Int} {m n : Mark} {clean : HM Unit} (hl : Frees clean l) {k' : Unit → HP ρ β'} {k : Unit → PM σ β}
    (h : HRel A base (St AnyDirs c l) (k' ()) (k ()) Q) :
    HRel A base (St AnyDirs c l) (orFree (hCheckLevel H maxLevel m n) clean >>= k') (checkLevel (cutSrc S) maxLevel m n >>= k) Q :=
  hrel_orFreeB (hrel_level hS) hl fun _ _ => h

theorem hrel_content {H : HSrc ρ} {S : TokSrc σ} (hS : Link H S) {maxLevel : Int} {block indentless : Bool} {P : Props} {lp : HProps} {a T tag : Option Text} {tp : Ptr} {x y w : Blocks}
    {ht : HToken} {t : Token} (h : NodeProps P lp a T tag tp x y) (hx : TokenAt t ht w) :
    HRel A base (St AnyDirs (some (ht, t)) (x ++ y)) (hNodeContent H maxLevel block indentless lp tp ht) (nodeContent (cutSrc S) maxLevel block indentless P tag t)
      EvPost := by
  unfold hNodeContent nodeContent
  refine hrel_implicit h ?_
  have hs := hx.starts
  have he := hx.stops
  have hF := h.frees
  have hseq : ∀ i st m n, EvGood ⟨.sequenceStart lp.anchor tp i st, m, n⟩ ⟨.sequenceStart P.anchor tag i st, m, n⟩ (x ++ y) := fun i st m n =>
    ⟨⟨.sequenceStart a T i st, ⟨lp.anchor, tp, x, y, rfl, h.str, h.tstr, rfl⟩, by rw [h.anchor, h.tag]; rfl, rfl, rfl⟩,
      fun hs => ⟨⟨lp.anchor, tp, x, y, rfl, h.str' hs, h.tstr' hs, rfl⟩, h.strings hs, h.legible hs⟩⟩
  have hmap : ∀ i st m n, EvGood ⟨.mappingStart lp.anchor tp i st, m, n⟩ ⟨.mappingStart P.anchor tag i st, m, n⟩ (x ++ y) := fun i st m n =>
    ⟨⟨.mappingStart a T i st, ⟨lp.anchor, tp, x, y, rfl, h.str, h.tstr, rfl⟩, by rw [h.anchor, h.tag]; rfl, rfl, rfl⟩,
      fun hs => ⟨⟨lp.anchor, tp, x, y, rfl, h.str' hs, h.tstr' hs, rfl⟩, h.strings hs, h.legible hs⟩⟩
  simp only [h.start, hs, he]
  generalize (tag.isNone || tag == some []) = imp
  refine hrel_ite ?_ (fun _ => hrel_setB (hrel_ret (hseq _ _ _ _))) fun _ => ?_
  · have := tok_plain (d := .blockEntry) hx rfl
    simp [this]
  have begin : ∀ (st : PState) (e' : HEvent) (e : EvData), (∀ m n, EvGood ⟨e', m, n⟩ ⟨e, m, n⟩ (x ++ y)) →
      HRel A base (St AnyDirs (some (ht, t)) (x ++ y)) (hBegin H maxLevel lp tp ht st e') (do
        checkLevel (cutSrc S) maxLevel P.start t.start
        setState st
        pure { data := e, start := P.start, stop := t.stop }) EvPost := by
    intro st e' e hev
    unfold hBegin
    rw [h.start, hs, he]
    exact hrel_levelF hS hF (hrel_setB (hrel_ret (hev _ _)))
  have other : ∀ (d : TokData) (d' : HTokData), (d' = .plain .blockSequenceStart ↔ d = .blockSequenceStart) → (d' = .plain .blockMappingStart ↔ d = .blockMappingStart) →
      HRel A base (St AnyDirs (some (ht, t)) (x ++ y)) (if block && decide (d' = .plain .blockSequenceStart) then
        hBegin H maxLevel lp tp ht .blockSequenceFirstEntry (.sequenceStart lp.anchor tp imp .block)
      else if block && decide (d' = .plain .blockMappingStart) then
        hBegin H maxLevel lp tp ht .blockMappingFirstKey (.mappingStart lp.anchor tp imp .block)
      else if lp.anchor.isSome || tp.isSome then hEmptyNode lp tp imp
      else hstop (.parser (some (if block then "while parsing a block node" else "while parsing a flow node")) P.start
          "did not find expected node content" t.start) (freeProps lp tp)) (if block && d == .blockSequenceStart then do
        checkLevel (cutSrc S) maxLevel P.start t.start
        setState .blockSequenceFirstEntry
        pure { data := .sequenceStart P.anchor tag imp .block, start := P.start, stop := t.stop }
      else if block && d == .blockMappingStart then do
        checkLevel (cutSrc S) maxLevel P.start t.start
        setState .blockMappingFirstKey
        pure { data := .mappingStart P.anchor tag imp .block, start := P.start, stop := t.stop }
      else if P.anchor.isSome || tag.isSome then do
        popState
        pure { data := .scalar P.anchor tag [] imp false .plain, start := P.start, stop := P.stop }
      else
        perrCtx (if block then "while parsing a block node" else "while parsing a flow node") P.start
          "did not find expected node content" t.start) EvPost := by
    intro d d' h1 h2
    refine hrel_ite (by simp [h1]) (fun _ => begin _ _ _ (hseq _ _)) fun _ => ?_
    refine hrel_ite (by simp [h2]) (fun _ => begin _ _ _ (hmap _ _)) fun _ => ?_
    refine hrel_ite (by rw [h.isSome]) (fun _ => ?_) fun _ => hrel_stop hF
    unfold hEmptyNode
    rw [h.start, h.stop]
    refine hrel_mallocB (fun ha => ?_) fun q => ?_
    · rw [if_pos (by rfl)]
      exact hrel_nomem ha hF
    · rw [if_neg (by simp)]
      refine hrel_popB (hrel_locals (l' := x ++ (y ++ [(q, .bytes [0])])) (hrel_ret ?_) (by blocks))
      exact ⟨⟨.scalar a T [] imp false .plain, ⟨lp.anchor, tp, some q, x, y, _, rfl, h.str, h.tstr, ⟨q, [], rfl, rfl⟩, rfl⟩, by rw [h.anchor, h.tag]; rfl, rfl, rfl⟩,
        fun hs => ⟨⟨lp.anchor, tp, some q, x, y, _, rfl, h.str' hs, h.tstr' hs, ⟨q, [], rfl, rfl⟩, rfl⟩, h.strings hs, (h.legible hs).1, (h.legible hs).2, fun c hc => by cases hc⟩⟩
  have hx' := hx
  obtain ⟨D, d1, d2, d3, d4, d5⟩ := hx
  cases D with
  | scalar v st =>
    obtain ⟨q, d6, d7⟩ := d3
    simp only [d1, cutTok, d6]
    unfold hScalar
    rw [h.start, he]
    refine hrel_bang h ?_
    rw [h.isNone]
    refine hrel_popB (hrel_skipB fun z hz => ?_)
    obtain ⟨v', i1, i2, i3, i4⟩ := tok_scalar hz d6
    rw [d1] at i1
    simp only [cutTok, TokData.scalar.injEq] at i1
    obtain ⟨rfl, _⟩ := i1
    refine hrel_locals (l' := x ++ (y ++ z)) (hrel_ret ?_) (by blocks)
    exact ⟨⟨.scalar a T v _ _ st, ⟨lp.anchor, tp, q, x, y, z, rfl, h.str, h.tstr, i3, rfl⟩, by rw [h.anchor, h.tag]; rfl, rfl, rfl⟩,
      fun hs => ⟨⟨lp.anchor, tp, q, x, y, z, rfl, h.str' hs, h.tstr' hs, i3, rfl⟩, h.strings hs, (h.legible hs).1, (h.legible hs).2, fun c hc => Nat.lt_of_lt_of_le (i4 hs c hc) (by decide)⟩⟩
  | flowSequenceStart =>
    simp only [d1, cutTok, d3.1]
    exact begin _ _ _ (hseq _ _)
  | flowMappingStart =>
    simp only [d1, cutTok, d3.1]
    exact begin _ _ _ (hmap _ _)
  | tagDirective D => obtain ⟨p, q, _, _, d3, _⟩ := d3; simp only [d1, cutTok, d3]; exact other _ _ (by simp) (by simp)
  | tag D E => obtain ⟨p, q, _, _, d3, _⟩ := d3; simp only [d1, cutTok, d3]; exact other _ _ (by simp) (by simp)
  | anchor D => obtain ⟨p, d3, _⟩ := d3; simp only [d1, cutTok, d3]; exact other _ _ (by simp) (by simp)
  | «alias» D => obtain ⟨p, d3, _⟩ := d3; simp only [d1, cutTok, d3]; exact other _ _ (by simp) (by simp)
  | blockSequenceStart => rw [d1, d3.1]; exact other .blockSequenceStart (.plain .blockSequenceStart) (by simp) (by simp)
  | blockMappingStart => rw [d1, d3.1]; exact other .blockMappingStart (.plain .blockMappingStart) (by simp) (by simp)
  | _ => simp only [d1, cutTok, d3.1]; exact other _ _ (by simp) (by simp)

theorem hrel_parseNode {H : HSrc ρ} {S : TokSrc σ} (hS : Link H S) {maxLevel : Int} {block indentless : Bool} :
    HRel A base (St AnyDirs c []) (hParseNode H maxLevel block indentless) (parseNode (cutSrc S) maxLevel block indentless) EvPost := by
  unfold hParseNode parseNode
  refine hrel_peekB hS fun ht t w hx => ?_
  have rest : HRel A base (St AnyDirs (some (ht, t)) []) (do
      let r ← hParseProps H ht
      let tag ← hResolveTag r.1
      hNodeContent H maxLevel block indentless { r.1 with handle := none, suffix := none } tag r.2) (do
      let (p, token) ← parseProps (cutSrc S) t
      let tag ← resolveTagM p
      nodeContent (cutSrc S) maxLevel block indentless p tag token) EvPost := by
    refine hrel_bind (hrel_parseProps hS hx) fun r' r => ?_
    refine hrel_ex fun x => hrel_and fun ⟨hp, w2, hw2⟩ => ?_
    obtain ⟨a, ha, hr⟩ := hrel_resolve (A := A) (base := base) (ρ := ρ) (σ := σ) (c := some (r'.2, r.2)) hp
    refine hrel_bind hr fun tp tag => ?_
    refine hrel_ex fun T => hrel_ex fun x1 => hrel_ex fun y1 => hrel_and fun ⟨j1, j2, j3, j4⟩ => ?_
    obtain ⟨_, _, _, _, _, _, i4, i5, _⟩ := hp
    exact hrel_content hS (lp := { r'.1 with handle := none, suffix := none }) ⟨ha.1, j1, j3, j2, j4, ha.2, rfl, rfl, i4, i5⟩ hw2
  have hx' := hx
  obtain ⟨D, d1, d2, d3, d4, d5⟩ := hx
  cases D with
  | «alias» D =>
    obtain ⟨q, d6, d7⟩ := d3
    simp only [d1, cutTok, d6, d4, d5]
    refine hrel_popB (hrel_skipB fun z hz => ?_)
    obtain ⟨v', i1, i3, i4⟩ := tok_alias hz d6
    rw [d1] at i1
    simp only [cutTok, TokData.alias.injEq] at i1
    rw [i1, List.append_nil]
    refine hrel_ret ⟨⟨.alias v', ⟨q, rfl, i3⟩, rfl, rfl, rfl⟩, fun hs => ?_⟩
    rw [cut_of_ctext (i4 hs).ctext]
    exact ⟨⟨q, rfl, i3⟩, i4 hs, (i4 hs).ctext⟩
  | tagDirective D => obtain ⟨p, q, _, _, d3, _⟩ := d3; simp only [d1, cutTok, d3]; exact rest
  | tag D E => obtain ⟨p, q, _, _, d3, _⟩ := d3; simp only [d1, cutTok, d3]; exact rest
  | anchor D => obtain ⟨p, d3, _⟩ := d3; simp only [d1, cutTok, d3]; exact rest
  | scalar D E => obtain ⟨p, d3, _⟩ := d3; simp only [d1, cutTok, d3]; exact rest
  | _ => simp only [d1, cutTok, d3.1]; exact rest

theorem hrel_documentContent {H : HSrc ρ} {S : TokSrc σ} (hS : Link H S) {maxLevel : Int} :
    HRel A base (St AnyDirs none []) (hParseDocumentContent H maxLevel) (parseDocumentContent (cutSrc S) maxLevel) EvPost := by
  unfold hParseDocumentContent parseDocumentContent
  refine hrel_peekB hS fun ht t w hx => ?_
  rw [hx.starts, tok_starts hx]
  refine hrel_ite ?_ (fun _ => hrel_popB hrel_empty) fun _ => hrel_parseNode hS
  have := tok_plain (d := .documentEnd) hx rfl
  simp [this]

/-! ### Collections -/

/-- A call in a state at the start of a collection: the token that opens it is still there. -/
def Opens (first : Bool) (p : HPS ρ) (s : PS σ) (b : Blocks) : Prop :=
  (first = true → ∃ t, s.avail = some t ∧ t.data.isOpener = true) ∧ St AnyDirs none [] p s b

theorem opener_plain {d : TokData} (h : d.isOpener = true) : d.isPlain = true := by
  cases d <;> first | rfl | cases h

theorem hrel_enterB {H : HSrc ρ} {S : TokSrc σ} {first : Bool} {k' : Unit → HP ρ β'} {k : Unit → PM σ β} (h : HRel A base (St AnyDirs none []) (k' ()) (k ()) Q) :
    HRel A base (Opens first) (hEnterCollection H first >>= k') (enterCollection (cutSrc S) first >>= k) Q := by
  refine hrel_bind (R := fun _ _ => St AnyDirs none []) ?_ (fun _ _ => h)
  unfold hEnterCollection enterCollection
  cases first with
  | false => exact hrel_pure fun p s b hp => hp.2
  | true =>
    rw [if_pos (by rfl), if_pos (by rfl)]
    refine hrel_bind (R := fun ht t p s b => (ht.start = t.start ∧ t.data.isPlain = true) ∧ St AnyDirs (some (ht, t)) [] p s b) ?_ fun ht t => ?_
    · rintro p s b fr hp ⟨hfst, hst⟩ e hu hf
      obtain ⟨t, ha, hop⟩ := hfst rfl
      have hst' := hst
      obtain ⟨b0, ho, hc, hb⟩ := hst
      obtain ⟨x1, x2, x3, x4, x5, k1, k2, k3, k4, k5, k6, k8, k9, k10⟩ := ho
      have k4' := k4
      rw [ha] at k4'
      obtain ⟨ht, k11, k12⟩ := k4'
      have l1 : hPeekUnchecked H p hp = .ok ((.ok ht, p), hp) := by
        unfold hPeekUnchecked hPeek
        simp only [k11]
      have l2 : peekUnchecked (cutSrc S) s = .ok (t, s) := by
        unfold peekUnchecked peek
        simp only [ha]
      refine hw_run l1 ?_
      rw [l2]
      exact ⟨t, s, b, rfl, ⟨⟨k12.starts, opener_plain hop⟩, b0, ⟨x1, x2, x3, x4, x5, k1, k2, k3, k4, k5, k6, k8, k9, k10⟩, ⟨(fun x hx => by cases hx; exact ⟨k11, ha⟩), hc.2⟩, hb⟩, e⟩
    · refine hrel_and fun ⟨h1, h2⟩ => ?_
      rw [h1]
      refine hrel_pushMarkB ?_
      refine hrel_post hrel_skip fun _ _ p s b ⟨x, hx, hst⟩ => ?_
      obtain ⟨rfl, _⟩ := tok_nil hx h2
      exact hst

theorem hrel_blockSeq {H : HSrc ρ} {S : TokSrc σ} (hS : Link H S) {maxLevel : Int} {first : Bool} :
    HRel A base (Opens first) (hParseBlockSequenceEntry H maxLevel first) (parseBlockSequenceEntry (cutSrc S) maxLevel first) EvPost := by
  unfold hParseBlockSequenceEntry parseBlockSequenceEntry
  refine hrel_enterB (hrel_peekB hS fun ht t w hx => ?_)
  have bad : HRel A base (St AnyDirs (some (ht, t)) []) (do
      let m ← hPopMark
      hfail (.parser (some "while parsing a block collection") m "did not find expected '-' indicator" ht.start)) (do
      let m ← popMark
      perrCtx "while parsing a block collection" m "did not find expected '-' indicator" t.start) (EvPost (ρ := ρ) (σ := σ)) := by
    rw [hx.starts]
    exact hrel_popMarkB fun m => hrel_fail
  have hx' := hx
  obtain ⟨D, d1, d2, d3, d4, d5⟩ := hx
  cases D with
  | blockEntry =>
    simp only [d1, cutTok, d3.1, d5]
    refine hrel_skipP (by rw [d1]; rfl) (hrel_peekB hS fun ht2 t2 w2 hx2 => ?_)
    refine hrel_ite (by rw [ne_eq, ne_eq, tok_plain hx2 rfl, tok_plain hx2 rfl]) (fun _ => hrel_pushB (hrel_parseNode hS)) fun _ => hrel_setB hrel_empty
  | blockEnd =>
    simp only [d1, cutTok, d3.1, d4, d5]
    exact hrel_popB (hrel_popMarkB fun _ => hrel_skipP (by rw [d1]; rfl) (hrel_ret (evAt_plain ⟨rfl, rfl⟩ rfl trivial trivial)))
  | tagDirective D => obtain ⟨p, q, _, _, d3, _⟩ := d3; simp only [d1, cutTok, d3]; exact bad
  | tag D E => obtain ⟨p, q, _, _, d3, _⟩ := d3; simp only [d1, cutTok, d3]; exact bad
  | anchor D => obtain ⟨p, d3, _⟩ := d3; simp only [d1, cutTok, d3]; exact bad
  | «alias» D => obtain ⟨p, d3, _⟩ := d3; simp only [d1, cutTok, d3]; exact bad
  | scalar D E => obtain ⟨p, d3, _⟩ := d3; simp only [d1, cutTok, d3]; exact bad
  | _ => simp only [d1, cutTok, d3.1]; exact bad

theorem hrel_indentless {H : HSrc ρ} {S : TokSrc σ} (hS : Link H S) {maxLevel : Int} :
    HRel A base (St AnyDirs none []) (hParseIndentlessSequenceEntry H maxLevel) (parseIndentlessSequenceEntry (cutSrc S) maxLevel) EvPost := by
  unfold hParseIndentlessSequenceEntry parseIndentlessSequenceEntry
  refine hrel_peekB hS fun ht t w hx => ?_
  simp only [hx.starts, hx.stops]
  refine hrel_ite (tok_plain hx rfl) (fun hd => ?_) fun _ => hrel_popB (hrel_ret (evAt_plain ⟨rfl, rfl⟩ rfl trivial trivial))
  refine hrel_skipP (by rw [hd]; rfl) (hrel_peekB hS fun ht2 t2 w2 hx2 => ?_)
  exact hrel_ite (by rw [ne_eq, ne_eq, ne_eq, ne_eq, tok_plain hx2 rfl, tok_plain hx2 rfl, tok_plain hx2 rfl, tok_plain hx2 rfl])
    (fun _ => hrel_pushB (hrel_parseNode hS)) fun _ => hrel_setB hrel_empty

theorem hrel_blockKey {H : HSrc ρ} {S : TokSrc σ} (hS : Link H S) {maxLevel : Int} {first : Bool} :
    HRel A base (Opens first) (hParseBlockMappingKey H maxLevel first) (parseBlockMappingKey (cutSrc S) maxLevel first) EvPost := by
  unfold hParseBlockMappingKey parseBlockMappingKey
  refine hrel_enterB (hrel_peekB hS fun ht t w hx => ?_)
  have bad : HRel A base (St AnyDirs (some (ht, t)) []) (do
      let m ← hPopMark
      hfail (.parser (some "while parsing a block mapping") m "did not find expected key" ht.start)) (do
      let m ← popMark
      perrCtx "while parsing a block mapping" m "did not find expected key" t.start) (EvPost (ρ := ρ) (σ := σ)) := by
    rw [hx.starts]
    exact hrel_popMarkB fun m => hrel_fail
  have hx' := hx
  obtain ⟨D, d1, d2, d3, d4, d5⟩ := hx
  cases D with
  | key =>
    simp only [d1, cutTok, d3.1, d5]
    refine hrel_skipP (by rw [d1]; rfl) (hrel_peekB hS fun ht2 t2 w2 hx2 => ?_)
    refine hrel_ite (by rw [ne_eq, ne_eq, ne_eq, tok_plain hx2 rfl, tok_plain hx2 rfl, tok_plain hx2 rfl]) (fun _ => hrel_pushB (hrel_parseNode hS))
      fun _ => hrel_setB hrel_empty
  | blockEnd =>
    simp only [d1, cutTok, d3.1, d4, d5]
    exact hrel_popB (hrel_popMarkB fun _ => hrel_skipP (by rw [d1]; rfl) (hrel_ret (evAt_plain ⟨rfl, rfl⟩ rfl trivial trivial)))
  | tagDirective D => obtain ⟨p, q, _, _, d3, _⟩ := d3; simp only [d1, cutTok, d3]; exact bad
  | tag D E => obtain ⟨p, q, _, _, d3, _⟩ := d3; simp only [d1, cutTok, d3]; exact bad
  | anchor D => obtain ⟨p, d3, _⟩ := d3; simp only [d1, cutTok, d3]; exact bad
  | «alias» D => obtain ⟨p, d3, _⟩ := d3; simp only [d1, cutTok, d3]; exact bad
  | scalar D E => obtain ⟨p, d3, _⟩ := d3; simp only [d1, cutTok, d3]; exact bad
  | _ => simp only [d1, cutTok, d3.1]; exact bad

theorem hrel_blockValue {H : HSrc ρ} {S : TokSrc σ} (hS : Link H S) {maxLevel : Int} :
    HRel A base (St AnyDirs none []) (hParseBlockMappingValue H maxLevel) (parseBlockMappingValue (cutSrc S) maxLevel) EvPost := by
  unfold hParseBlockMappingValue parseBlockMappingValue
  refine hrel_peekB hS fun ht t w hx => ?_
  simp only [hx.starts, hx.stops]
  refine hrel_ite (tok_plain hx rfl) (fun hd => ?_) fun _ => hrel_setB hrel_empty
  refine hrel_skipP (by rw [hd]; rfl) (hrel_peekB hS fun ht2 t2 w2 hx2 => ?_)
  exact hrel_ite (by rw [ne_eq, ne_eq, ne_eq, tok_plain hx2 rfl, tok_plain hx2 rfl, tok_plain hx2 rfl])
    (fun _ => hrel_pushB (hrel_parseNode hS)) fun _ => hrel_setB hrel_empty

theorem hrel_endFlow {d' : HEvent} {d : EvData} {ht : HToken} {t : Token} {w : Blocks} (hx : TokenAt t ht w) (hp : t.data.isPlain = true)
    (he : EventAt d d' []) (hc : cutEvent d = d) (hs : Stringy d) (hl : Legible d) : HRel A base (St AnyDirs (some (ht, t)) []) (hEndFlow d' ht) (endFlow d t) (EvPost (ρ := ρ) (σ := σ)) := by
  unfold hEndFlow endFlow
  rw [hx.starts, hx.stops]
  exact hrel_popB (hrel_popMarkB fun _ => hrel_skipP hp (hrel_ret (evAt_plain he hc hs hl)))

theorem hrel_separatorB {H : HSrc ρ} {S : TokSrc σ} (hS : Link H S) {first : Bool} {ht : HToken} {t : Token} {w : Blocks} {a b : String} (hx : TokenAt t ht w)
    {k' : HToken → HP ρ β'} {k : Token → PM σ β} (h : ∀ ht t x, TokenAt t ht x → HRel A base (St AnyDirs (some (ht, t)) []) (k' ht) (k t) Q) :
    HRel A base (St AnyDirs (some (ht, t)) []) (hFlowSeparator H first ht a b >>= k') (flowSeparator (cutSrc S) first t a b >>= k) Q := by
  refine hrel_bind (R := fun ht t p s b => (∃ x, TokenAt t ht x) ∧ St AnyDirs (some (ht, t)) [] p s b) ?_ fun ht t => hrel_and fun ⟨x, hx⟩ => h ht t x hx
  unfold hFlowSeparator flowSeparator
  refine hrel_ite Iff.rfl (fun _ => hrel_pure fun p s b hp => ⟨⟨w, hx⟩, hp⟩) fun _ => ?_
  refine hrel_ite (tok_plain hx rfl) (fun hd => ?_) fun _ => ?_
  · exact hrel_skipP (by rw [hd]; rfl) (hrel_peek hS)
  · rw [hx.starts]
    exact hrel_popMarkB fun m => hrel_fail

theorem hrel_flowSeq {H : HSrc ρ} {S : TokSrc σ} (hS : Link H S) {maxLevel : Int} {first : Bool} :
    HRel A base (Opens first) (hParseFlowSequenceEntry H maxLevel first) (parseFlowSequenceEntry (cutSrc S) maxLevel first) EvPost := by
  unfold hParseFlowSequenceEntry parseFlowSequenceEntry
  refine hrel_enterB (hrel_peekB hS fun ht t w hx => ?_)
  refine hrel_ite (by rw [ne_eq, ne_eq, tok_plain hx rfl]) (fun _ => ?_) fun hd => ?_
  · refine hrel_separatorB hS hx fun ht t w hx => ?_
    refine hrel_ite (tok_plain hx rfl) (fun hd => ?_) fun _ => ?_
    · simp only [hx.starts, hx.stops]
      exact hrel_setB (hrel_skipP (by rw [hd]; rfl) (hrel_ret
        (evAt_plain ⟨none, none, [], [], rfl, ⟨rfl, rfl⟩, ⟨rfl, rfl⟩, rfl⟩ rfl ⟨nofun, nofun⟩ ⟨nofun, nofun⟩)))
    · refine hrel_ite (by rw [ne_eq, ne_eq, tok_plain hx rfl]) (fun _ => hrel_pushB (hrel_parseNode hS)) fun hd => ?_
      exact hrel_endFlow hx (by rw [Classical.not_not.mp hd]; rfl) ⟨rfl, rfl⟩ rfl trivial trivial
  · exact hrel_endFlow hx (by rw [Classical.not_not.mp hd]; rfl) ⟨rfl, rfl⟩ rfl trivial trivial

theorem hrel_pairKey {H : HSrc ρ} {S : TokSrc σ} (hS : Link H S) {maxLevel : Int} :
    HRel A base (St AnyDirs none []) (hParseFlowSequenceEntryMappingKey H maxLevel) (parseFlowSequenceEntryMappingKey (cutSrc S) maxLevel) EvPost := by
  unfold hParseFlowSequenceEntryMappingKey parseFlowSequenceEntryMappingKey
  refine hrel_peekB hS fun ht t w hx => ?_
  simp only [hx.starts, hx.stops]
  refine hrel_ite (by rw [ne_eq, ne_eq, ne_eq, tok_plain hx rfl, tok_plain hx rfl, tok_plain hx rfl]) (fun _ => hrel_pushB (hrel_parseNode hS)) fun hd => ?_
  refine hrel_ite (tok_plain hx rfl) (fun _ => hrel_setB hrel_empty) fun hd2 => ?_
  refine hrel_skipP ?_ (hrel_setB hrel_empty)
  by_cases h1 : t.data = .value
  · rw [h1]; rfl
  · by_cases h2 : t.data = .flowEntry
    · rw [h2]; rfl
    · exact absurd ⟨h1, h2, hd2⟩ hd

theorem hrel_pairValue {H : HSrc ρ} {S : TokSrc σ} (hS : Link H S) {maxLevel : Int} :
    HRel A base (St AnyDirs none []) (hParseFlowSequenceEntryMappingValue H maxLevel) (parseFlowSequenceEntryMappingValue (cutSrc S) maxLevel) EvPost := by
  unfold hParseFlowSequenceEntryMappingValue parseFlowSequenceEntryMappingValue
  refine hrel_peekB hS fun ht t w hx => ?_
  simp only [hx.starts]
  refine hrel_ite (tok_plain hx rfl) (fun hd => ?_) fun _ => hrel_setB hrel_empty
  refine hrel_skipP (by rw [hd]; rfl) (hrel_peekB hS fun ht2 t2 w2 hx2 => ?_)
  simp only [hx2.starts]
  exact hrel_ite (by rw [ne_eq, ne_eq, tok_plain hx2 rfl, tok_plain hx2 rfl]) (fun _ => hrel_pushB (hrel_parseNode hS)) fun _ => hrel_setB hrel_empty

theorem hrel_pairEnd {H : HSrc ρ} {S : TokSrc σ} (hS : Link H S) :
    HRel A base (St AnyDirs none []) (hParseFlowSequenceEntryMappingEnd H) (parseFlowSequenceEntryMappingEnd (cutSrc S)) EvPost := by
  unfold hParseFlowSequenceEntryMappingEnd parseFlowSequenceEntryMappingEnd
  refine hrel_peekB hS fun ht t w hx => ?_
  simp only [hx.starts]
  exact hrel_setB (hrel_ret (evAt_plain ⟨rfl, rfl⟩ rfl trivial trivial))

theorem hrel_flowKey {H : HSrc ρ} {S : TokSrc σ} (hS : Link H S) {maxLevel : Int} {first : Bool} :
    HRel A base (Opens first) (hParseFlowMappingKey H maxLevel first) (parseFlowMappingKey (cutSrc S) maxLevel first) EvPost := by
  unfold hParseFlowMappingKey parseFlowMappingKey
  refine hrel_enterB (hrel_peekB hS fun ht t w hx => ?_)
  refine hrel_ite (by rw [ne_eq, ne_eq, tok_plain hx rfl]) (fun _ => ?_) fun hd => ?_
  · refine hrel_separatorB hS hx fun ht t w hx => ?_
    refine hrel_ite (tok_plain hx rfl) (fun hd => ?_) fun _ => ?_
    · refine hrel_skipP (by rw [hd]; rfl) (hrel_peekB hS fun ht2 t2 w2 hx2 => ?_)
      simp only [hx2.starts]
      exact hrel_ite (by rw [ne_eq, ne_eq, ne_eq, tok_plain hx2 rfl, tok_plain hx2 rfl, tok_plain hx2 rfl])
        (fun _ => hrel_pushB (hrel_parseNode hS)) fun _ => hrel_setB hrel_empty
    · refine hrel_ite (by rw [ne_eq, ne_eq, tok_plain hx rfl]) (fun _ => hrel_pushB (hrel_parseNode hS)) fun hd => ?_
      exact hrel_endFlow hx (by rw [Classical.not_not.mp hd]; rfl) ⟨rfl, rfl⟩ rfl trivial trivial
  · exact hrel_endFlow hx (by rw [Classical.not_not.mp hd]; rfl) ⟨rfl, rfl⟩ rfl trivial trivial

theorem hrel_flowValue {H : HSrc ρ} {S : TokSrc σ} (hS : Link H S) {maxLevel : Int} {empty : Bool} :
    HRel A base (St AnyDirs none []) (hParseFlowMappingValue H maxLevel empty) (parseFlowMappingValue (cutSrc S) maxLevel empty) EvPost := by
  unfold hParseFlowMappingValue parseFlowMappingValue
  refine hrel_peekB hS fun ht t w hx => ?_
  simp only [hx.starts]
  refine hrel_ite Iff.rfl (fun _ => hrel_setB hrel_empty) fun _ => ?_
  refine hrel_ite (tok_plain hx rfl) (fun hd => ?_) fun _ => hrel_setB hrel_empty
  refine hrel_skipP (by rw [hd]; rfl) (hrel_peekB hS fun ht2 t2 w2 hx2 => ?_)
  simp only [hx2.starts]
  exact hrel_ite (by rw [ne_eq, ne_eq, tok_plain hx2 rfl, tok_plain hx2 rfl]) (fun _ => hrel_pushB (hrel_parseNode hS)) fun _ => hrel_setB hrel_empty

/-- A call of the parser that is not at the end. -/
theorem hw_stateMachine {H : HSrc ρ} {S : TokSrc σ} (hS : Link H S) {maxLevel : Int} {fuel : Nat} {p : HPS ρ} {s : PS σ} {b fr : Blocks} {h : Heap}
    (ho : Own p s b) (hi : EInv s) (e : Ext A base (b ++ fr) h) (hu : stateMachine (cutSrc S) maxLevel fuel s ≠ .error .ub)
    (hf : stateMachine (cutSrc S) maxLevel fuel s ≠ .error .fuel) :
    hw (hStateMachine H maxLevel fuel p) (HPost A base fr EvPost (stateMachine (cutSrc S) maxLevel fuel s)) h := by
  have hst : St AnyDirs none [] p s b := ⟨b, ho, ⟨(fun x hx => by cases hx), trivial⟩, List.Perm.refl _⟩
  have hfst := hi.first
  have hno : Opens false p s b := ⟨(fun h => by cases h), hst⟩
  obtain ⟨x1, x2, x3, x4, x5, k1, k2, k3, k4, k5, k6, k8, k9, k10⟩ := ho
  unfold hStateMachine
  unfold stateMachine at hu hf ⊢
  rw [k9]
  cases hs : s.state <;> rw [hs] at hu hf hfst <;> simp only at hu hf ⊢
  case streamStart => exact hrel_streamStart hS p s b fr h hst e hu hf
  case implicitDocumentStart => exact hrel_parseDocumentStart hS fuel true p s b fr h hst e hu hf
  case documentStart => exact hrel_parseDocumentStart hS fuel false p s b fr h hst e hu hf
  case documentContent => exact hrel_documentContent hS p s b fr h hst e hu hf
  case documentEnd => exact hrel_parseDocumentEnd hS p s b fr h hst e hu hf
  case blockNode => exact hrel_parseNode hS p s b fr h hst e hu hf
  case blockSequenceFirstEntry => exact hrel_blockSeq hS p s b fr h ⟨fun _ => hfst rfl, hst⟩ e hu hf
  case blockSequenceEntry => exact hrel_blockSeq hS p s b fr h hno e hu hf
  case indentlessSequenceEntry => exact hrel_indentless hS p s b fr h hst e hu hf
  case blockMappingFirstKey => exact hrel_blockKey hS p s b fr h ⟨fun _ => hfst rfl, hst⟩ e hu hf
  case blockMappingKey => exact hrel_blockKey hS p s b fr h hno e hu hf
  case blockMappingValue => exact hrel_blockValue hS p s b fr h hst e hu hf
  case flowSequenceFirstEntry => exact hrel_flowSeq hS p s b fr h ⟨fun _ => hfst rfl, hst⟩ e hu hf
  case flowSequenceEntry => exact hrel_flowSeq hS p s b fr h hno e hu hf
  case flowSequenceEntryMappingKey => exact hrel_pairKey hS p s b fr h hst e hu hf
  case flowSequenceEntryMappingValue => exact hrel_pairValue hS p s b fr h hst e hu hf
  case flowSequenceEntryMappingEnd => exact hrel_pairEnd hS p s b fr h hst e hu hf
  case flowMappingFirstKey => exact hrel_flowKey hS p s b fr h ⟨fun _ => hfst rfl, hst⟩ e hu hf
  case flowMappingKey => exact hrel_flowKey hS p s b fr h hno e hu hf
  case flowMappingValue => exact hrel_flowValue hS p s b fr h hst e hu hf
  case flowMappingEmptyValue => exact hrel_flowValue hS p s b fr h hst e hu hf
  case done => exact absurd rfl hu

end

end LibYaml
