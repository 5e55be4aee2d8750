import Verif.Proofs.BoundaryTok

/-!
# Scalars, aliases and properties between two tokens

What the scanner makes of the texts that the emitter writes for nodes without children, whatever stands before and behind them.
-/
namespace LibYaml
open Spec

variable {C : Cx}

/-! ### Positions -/

/-- There is no line break in the text. -/
def NoBreaks (w : Text) : Prop := ∀ c ∈ w, isBreakChar c = false

theorem lastColumn_noBreaks {u w : Text} (h : NoBreaks w) : lastColumn (u ++ w) = lastColumn u + w.length := by
  unfold lastColumn
  rw [List.reverse_append, List.takeWhile_append_of_pos]
  · simp only [List.length_append, List.length_reverse]; omega
  · intro a ha
    rw [h a (List.mem_reverse.mp ha)]; rfl

theorem lastColumn_break {u w : Text} {c : Nat} (hc : isBreakChar c = true) (h : NoBreaks w) : lastColumn (u ++ c :: w) = w.length := by
  rw [show u ++ c :: w = (u ++ [c]) ++ w by simp, lastColumn_noBreaks h]
  unfold lastColumn
  rw [List.reverse_append]
  simp [hc]

theorem noBreaks_spaces (k : Nat) : NoBreaks (List.replicate k 0x20) := by
  intro c hc
  rw [List.eq_of_mem_replicate hc]; decide

theorem brk_last (lb : Break) : ∃ b c, brkText (some lb) = b ++ [c] ∧ isBreakChar c = true := by
  cases lb with
  | cr => exact ⟨[], _, rfl, by decide⟩
  | ln => exact ⟨[], _, rfl, by decide⟩
  | crln => exact ⟨[0xD], _, rfl, by decide⟩

theorem lastColumn_gap {u : Text} {lb : Break} {br : Bool} {k : Nat} :
    lastColumn (u ++ gap lb br k) = (if br = true then 0 else lastColumn u) + k := by
  unfold gap
  cases br with
  | false =>
    simp only [Bool.false_eq_true, if_false, List.nil_append]
    rw [lastColumn_noBreaks (noBreaks_spaces k), List.length_replicate]
  | true =>
    obtain ⟨b, c, e, hc⟩ := brk_last lb
    simp only [if_true, e]
    rw [show u ++ (b ++ [c] ++ List.replicate k 0x20) = (u ++ b) ++ c :: List.replicate k 0x20 by simp, lastColumn_break hc (noBreaks_spaces k),
      List.length_replicate]
    omega

theorem lineBreaks_mono (u w : Text) : lineBreaks u ≤ lineBreaks (u ++ w) := by
  induction u using lineBreaks.induct with
  | case1 => simp [lineBreaks]
  | case2 r ih => simp only [List.cons_append, lineBreaks_crlf_cons]; omega
  | case3 c r hne ih =>
    have hc : ¬ (c = 0xD ∧ r.head? = some 0xA) := by
      rintro ⟨rfl, h2⟩
      cases r with
      | nil => cases h2
      | cons x xs => cases h2; exact hne _ rfl rfl
    rw [lineBreaks_cons hc]
    by_cases hcv : c = 0xD ∧ (r ++ w).head? = some 0xA
    · obtain ⟨rfl, h2⟩ := hcv
      cases r with
      | cons x xs => exact absurd ⟨rfl, h2⟩ hc
      | nil =>
        cases w with
        | nil => cases h2
        | cons y ys =>
          cases h2
          simp only [List.cons_append, List.nil_append, lineBreaks_crlf_cons]
          simp [lineBreaks]
          split <;> omega
    · rw [List.cons_append, lineBreaks_cons hcv]; omega

theorem lineBreaks_noBreaks {w : Text} (h : NoBreaks w) : lineBreaks w = 0 := by
  induction w with
  | nil => simp [lineBreaks]
  | cons c w ih =>
    rw [lineBreaks_cons, ih fun x hx => h x (List.mem_cons_of_mem _ hx), h c List.mem_cons_self]; rfl
    rintro ⟨rfl, _⟩
    exact absurd (h _ List.mem_cons_self) (by decide)

theorem lineBreaks_same {u w : Text} (h : NoBreaks w) : lineBreaks (u ++ w) = lineBreaks u := by
  rw [lineBreaks_append, lineBreaks_noBreaks h]; omega
  rintro ⟨_, h2⟩
  cases w with
  | nil => cases h2
  | cons c w => cases h2; exact absurd (h _ List.mem_cons_self) (by decide)

/-- A line break behind the first character. -/
theorem lineBreaks_lt {u w : Text} {c d : Nat} (hd : w.head? = some d) (hd1 : d ≠ 0xA) (hm : c ∈ w) (hc : isBreakChar c = true) :
    lineBreaks u < lineBreaks (u ++ w) := by
  rw [lineBreaks_append]
  · have := lineBreaks_pos hc hm
    omega
  · rintro ⟨_, h⟩
    rw [hd] at h; cases h; exact hd1 rfl

/-! ### Keys -/

theorem KS.age_trans {u w : Text} (a : KS) (h : lineBreaks u ≤ lineBreaks w) : (a.age u).age w = a.age w := by
  cases a with
  | off => rfl
  | on n u0 r => rfl
  | calm l =>
    show KS.age w (if l < lineBreaks u then .off else .calm l) = _
    split
    · show KS.off = if l < lineBreaks w then .off else .calm l
      rw [if_pos (by omega)]
    · rfl

theorem map_age_age {u w : Text} (as : List KS) : (as.map (KS.age u)).map (KS.age (u ++ w)) = as.map (KS.age (u ++ w)) := by
  rw [List.map_map]
  exact List.map_congr_left fun a _ => a.age_trans (lineBreaks_mono u w)

/-- The key is not known exactly. -/
def KS.Vague : KS → Prop
  | .on _ _ _ => False
  | _ => True

theorem KS.Vague.fresh {a : KS} {u : Text} (h : a.Vague) : a.fresh u := by
  cases a with
  | on _ _ _ => exact h.elim
  | _ => trivial

theorem KS.Vague.free {a : KS} (h : a.Vague) : a.free := by
  cases a with
  | on _ _ _ => exact h.elim
  | _ => trivial

theorem KS.Vague.age {a : KS} {u : Text} (h : a.Vague) : (a.age u).Vague := by
  cases a with
  | on _ _ _ => exact h.elim
  | off => trivial
  | calm l =>
    show KS.Vague (if l < lineBreaks u then .off else .calm l)
    split <;> trivial

theorem vague_age {as : List KS} {u : Text} (h : ∀ a ∈ as, a.Vague) : ∀ a ∈ as.map (KS.age u), a.Vague := by
  intro a ha
  obtain ⟨b, hb, rfl⟩ := List.mem_map.mp ha
  exact (h b hb).age

theorem fresh_age {a : KS} {u w : Text} (h : a.fresh w) : (a.age u).fresh w := by
  cases a with
  | on _ _ _ => exact h
  | off => trivial
  | calm l =>
    show KS.fresh w (if l < lineBreaks u then .off else .calm l)
    split <;> trivial

theorem touch_vague {u : Text} {X : View} (h : ∀ a ∈ X.ks, a.Vague) : ∀ a ∈ (X.touch u).ks, a.Vague := by
  unfold View.touch
  split
  · intro a ha
    rcases List.mem_cons.mp ha with rfl | ha
    · trivial
    · exact h a (List.mem_of_mem_tail ha)
  · exact h

/-! ### Texts between tokens -/

theorem TokStart.append {b : Text} (h : TokStart b) (r : Text) : TokStart (b ++ r) := by
  obtain ⟨c, t, rfl, h⟩ := h
  exact ⟨c, t ++ r, rfl, h⟩

theorem TokStart.stops {t : Text} (h : TokStart t) : Stops t := by
  obtain ⟨c, r, e, h1, h2, _⟩ := h
  exact ⟨c, r, e, h1, h2⟩

theorem TokStart.cons {c : Nat} (r : Text) (h : isBlank c = false ∧ isBreak c = false ∧ c ≠ 35 ∧ c ≠ 0xFEFF) : TokStart (c :: r) := ⟨c, r, rfl, h⟩

theorem gap_none (lb : Break) : gap lb false 0 = [] := rfl

theorem gap_head {lb : Break} {br : Bool} {k : Nat} (h : br = true ∨ 0 < k) (t : Text) : ∃ c r, gap lb br k ++ t = c :: r ∧ isBlankz c = true ∧ c ≠ 39 := by
  unfold gap
  cases br with
  | true =>
    cases lb with
    | cr => exact ⟨_, _, rfl, by decide, by decide⟩
    | ln => exact ⟨_, _, rfl, by decide, by decide⟩
    | crln => exact ⟨_, _, rfl, by decide, by decide⟩
  | false =>
    cases k with
    | zero => rcases h with h | h <;> simp at h
    | succ k => exact ⟨32, List.replicate k 32 ++ t, by simp [List.replicate_succ], by decide, by decide⟩

/-! ### Nodes without children -/

/-- What may follow the properties of a node: white space. -/
def PropFol (_ : Int) (br : Bool) (k : Nat) (_ : Text) : Prop := br = true ∨ 0 < k

/-- The line does not belong to the collection at the column `pi`. -/
def Dedent (pi : Int) (k : Nat) (t : Text) : Prop := (k : Int) ≤ pi ∨ (k = 0 ∧ (DocLine t ∨ ∃ r, t = 0 :: r))

/-- What may follow a node without children. -/
def Fol (flow : Bool) (pi : Int) (br : Bool) (k : Nat) (t : Text) : Prop :=
  (flow = true ∧ br = false ∧ k = 0 ∧ ∃ c r, t = c :: r ∧ (c = 44 ∨ c = 93 ∨ c = 125)) ∨
  (∃ d r, t = 58 :: d :: r ∧ isBlankz d = true ∧ (flow = false → br = false)) ∨
  (flow = false ∧ br = true ∧ Dedent pi k t)

/-- The scanner reads the tokens `ts` from the text `b`; `al` says whether a simple key is allowed behind it. -/
structure LeafScan (flow : Bool) (ind : Int) (lb : Break) (h : Nat) (al : Bool → Bool) (fol : Int → Bool → Nat → Text → Prop) (b : Text) (ts : List TokData) : Prop where
  start : TokStart b
  scan : ∀ {C : Cx} {X : View} {u : Text} {ks0 : List KS} {br : Bool} {k : Nat} {t : Text}, Bd C X u (b ++ (gap lb br k ++ t)) → (X.flow != 0) = flow →
    X.ind < ind → (flow = false → X.ind ≤ (lastColumn u : Nat)) → (X.al = true → X.Free) → KeysLe (X.save u).ks ks0 →
    (∀ w, w <+: b ++ gap lb br k → ∀ a ∈ ks0, a.fresh (u ++ w)) → TokStart t → fol X.ind br k t → X.depth + h ≤ C.B →
    Bd C { X with ds := X.ds ++ ts, ks := ks0.map (KS.age (u ++ (b ++ gap lb br k))), al := al br } (u ++ (b ++ gap lb br k)) t

theorem Raw.leaf {X : View} {u w t : Text} {ks0 : List KS} {lb : Break} {br al : Bool} {k : Nat} {d : TokData}
    (h : Raw C (((X.save u).allow al).push d) (u ++ w) (LibYaml.gap lb br k ++ t)) (hk : KeysLe (X.save u).ks ks0)
    (hfr : ∀ a ∈ ks0, a.fresh (u ++ (w ++ LibYaml.gap lb br k))) (ht : TokStart t) :
    Bd C { X with ds := X.ds ++ [d], ks := ks0.map (KS.age (u ++ (w ++ LibYaml.gap lb br k))), al := al || (br && X.flow == 0) }
      (u ++ (w ++ LibYaml.gap lb br k)) t := by
  obtain ⟨e1, e2, e3, e4, e5⟩ := X.save_frame u
  rw [← List.append_assoc] at hfr ⊢
  have := (h.weaken (ks := ks0) hk).gap ht hfr
  generalize X.save u = Y at *
  unfold View.push View.allow at this
  simp only [e1, e2, e3, e4] at this
  exact this

theorem flat_of {X : View} {u : Text} {flow : Bool} (h : (X.flow != 0) = flow) (hi : flow = false → X.ind ≤ (lastColumn u : Nat)) : X.Flat u := by
  cases flow with
  | false => exact flat_of_le (hi rfl)
  | true => exact flat_of_flow (by simpa using h)

theorem Bd.fuel {X : View} {u t : Text} (h : Bd C X u t) : t.length + 2 < C.f := by
  have h1 := C.fuel
  rw [h.text, List.length_append] at h1
  omega

theorem flow_beq {X : View} {flow : Bool} (h : (X.flow != 0) = flow) : (X.flow == 0) = !flow := by
  rw [← h]
  cases h : X.flow == 0 <;> simp [bne, h]

theorem Fol.head {flow : Bool} {pi : Int} {br : Bool} {k : Nat} {t : Text} {lb : Break} (h : Fol flow pi br k t) :
    ∃ c r, gap lb br k ++ t = c :: r ∧ endsAnchor c = true ∧ c ≠ 39 := by
  by_cases hg : br = true ∨ 0 < k
  · obtain ⟨c, r, e, h1, h2⟩ := gap_head (lb := lb) hg t
    exact ⟨c, r, e, by unfold endsAnchor; rw [h1]; rfl, h2⟩
  · have : br = false ∧ k = 0 := by
      constructor
      · cases br <;> simp_all
      · omega
    obtain ⟨rfl, rfl⟩ := this
    rw [gap_none, List.nil_append]
    rcases h with ⟨_, _, _, c, r, rfl, h⟩ | ⟨d, r, rfl, _⟩ | ⟨_, h, _⟩
    · exact ⟨c, r, rfl, by rcases h with rfl | rfl | rfl <;> decide, by rcases h with rfl | rfl | rfl <;> decide⟩
    · exact ⟨58, _, rfl, by decide, by decide⟩
    · cases h

theorem leaf_name {flow : Bool} {ind : Int} {lb : Break} {fol : Int → Bool → Nat → Text → Prop} {v : Text} (an : Bool) (hv : ∀ c ∈ v, isAlpha c = true) (hne : v ≠ [])
    (hfol : ∀ pi br k t, fol pi br k t → ∃ c r, gap lb br k ++ t = c :: r ∧ endsAnchor c = true) :
    LeafScan flow ind lb 0 (fun br => br && !flow) fol ((if an = true then 38 else 42) :: v) [if an = true then .anchor v else .alias v] := by
  refine ⟨.cons _ (by cases an <;> decide), fun {C X u ks0 br k t} h hfl hi hc hf hk hfr ht hfo hB => ?_⟩
  have hfu := h.fuel
  have h' : Bd C X u ((if an = true then 38 else 42) :: (v ++ (gap lb br k ++ t))) := h
  have := (h'.anchor (flat_of hfl hc) (lw_scanAnchor (an := an) hv hne (by simp only [List.length_append, List.length_cons] at hfu; omega)
    (hfol _ _ _ _ hfo) ⟨rfl, rfl⟩) (by cases an <;> simp) hf hB).leaf hk (hfr _ (List.prefix_refl _)) ht
  rw [flow_beq hfl, Bool.false_or] at this
  exact this

theorem leaf_anchor {flow : Bool} {ind : Int} {lb : Break} {v : Text} (hv : ∀ c ∈ v, isAlpha c = true) (hne : v ≠ []) :
    LeafScan flow ind lb 0 (fun br => br && !flow) PropFol (38 :: v) [.anchor v] :=
  leaf_name true hv hne fun _ br k t h => by
    obtain ⟨c, r, e, h1, _⟩ := gap_head (lb := lb) h t
    exact ⟨c, r, e, by unfold endsAnchor; rw [h1]; rfl⟩

theorem leaf_alias {flow : Bool} {ind : Int} {lb : Break} {v : Text} (hv : ∀ c ∈ v, isAlpha c = true) (hne : v ≠ []) :
    LeafScan flow ind lb 0 (fun br => br && !flow) (Fol flow) (42 :: v) [.alias v] :=
  leaf_name false hv hne fun _ br k t h => by
    obtain ⟨c, r, e, h1, _⟩ := h.head (lb := lb)
    exact ⟨c, r, e, h1⟩

/-- A tag of any form. -/
theorem leaf_tag {flow : Bool} {ind : Int} {lb : Break} {w : Text} {d : TokData} (hd : d ≠ .streamEnd)
    (hs : ∀ f m r, TagEnd flow r → w.length + 1 ≤ f → lw (scanTag f flow) (fun tok _ cs => tok.data = d ∧ cs = r) m (33 :: (w ++ r))) :
    LeafScan flow ind lb 0 (fun br => br && !flow) PropFol (33 :: w) [d] := by
  refine ⟨.cons _ (by decide), fun {C X u ks0 br k t} h hfl hi hc hf hk hfr ht hfo hB => ?_⟩
  have hfu := h.fuel
  have h' : Bd C X u (33 :: (w ++ (gap lb br k ++ t))) := h
  obtain ⟨c, r, e, h1, _⟩ := gap_head (lb := lb) hfo t
  have := (h'.tag (flat_of hfl hc) (by
    rw [hfl]
    exact hs _ _ _ ⟨c, r, e, by rw [h1]; rfl⟩ (by simp only [List.length_append, List.length_cons] at hfu; omega)) hd hf hB).leaf hk (hfr _ (List.prefix_refl _)) ht
  rw [flow_beq hfl, Bool.false_or] at this
  exact this

theorem leaf_quoted {flow : Bool} {ind : Int} {lb : Break} {single : Bool} {ps : List Piece} (hp : Pieces single 0 ps) :
    LeafScan flow ind lb 0 (fun br => br && !flow) (Fol flow) (quoteC single :: (pText lb ps ++ [quoteC single]))
      [.scalar (pValue ps) (if single then .single else .double)] := by
  refine ⟨.cons _ (by cases single <;> decide), fun {C X u ks0 br k t} h hfl hi hc hf hk hfr ht hfo hB => ?_⟩
  have hfu := h.fuel
  have h' : Bd C X u (quoteC single :: ((pText lb ps ++ [quoteC single]) ++ (gap lb br k ++ t))) := h
  obtain ⟨c, r, e, _, h1⟩ := hfo.head (lb := lb)
  have := (h'.quoted (flat_of hfl hc) (d := .scalar (pValue ps) (if single then .single else .double)) (by
    rw [List.append_assoc]
    exact lw_scanFlowScalar hp (fun _ => by rw [e]; exact ⟨by simp, by simpa using h1⟩) (by
      simp only [List.length_append, List.length_cons] at hfu; omega)) (by simp) hf hB).leaf hk (hfr _ (List.prefix_refl _)) ht
  rw [flow_beq hfl, Bool.false_or] at this
  exact this

theorem plainPieces_le {flow : Bool} {i j : Int} (h : i ≤ j) {ps : List Piece} : ∀ {k : Nat}, PlainPieces flow j k ps → PlainPieces flow i k ps := by
  induction ps with
  | nil => exact fun h => h
  | cons p ps ih =>
    intro k hp
    refine ⟨?_, ih hp.2⟩
    have := hp.1
    cases p with
    | gap bs n => exact ⟨this.1, this.2.1, this.2.2.1, Int.le_trans h this.2.2.2⟩
    | lit c => exact this
    | sp => exact this
    | esc _ _ => exact this

theorem Fol.plain {flow : Bool} {pi : Int} {lb : Break} {br : Bool} {k : Nat} {t : Text} (h : Fol flow pi br k t) (ht : TokStart t) :
    PlainEnd flow (pi + 1) lb (gap lb br k ++ t) t br := by
  have hline : PlainStop flow t ∨ (flow = false ∧ (k : Int) < pi + 1) ∨ (k = 0 ∧ DocLine t) → PlainEnd flow (pi + 1) lb (gap lb true k ++ t) t true := by
    intro hx
    have := PlainEnd.line (flow := flow) (indent := pi + 1) (lb := lb) [0xA] k t (by simp) (by simp [keptBreak]) ht.stops hx
    unfold gap
    simpa [breaksOut, brkOut] using this
  rcases h with ⟨hfl, rfl, rfl, c, r, rfl, h⟩ | ⟨d, r, rfl, hd, h⟩ | ⟨rfl, rfl, h⟩
  · exact .here _ (.flow _ _ hfl (by rcases h with rfl | rfl | rfl <;> decide))
  · cases br with
    | true => exact hline (.inl (.value _ _ hd))
    | false =>
      cases k with
      | zero => exact .here _ (.value _ _ hd)
      | succ k => exact .spaces (k + 1) _ (by omega) (.value _ _ hd)
  · refine hline ?_
    rcases h with h | ⟨rfl, h | ⟨r, rfl⟩⟩
    · exact .inr (.inl ⟨rfl, by omega⟩)
    · exact .inr (.inr ⟨rfl, h⟩)
    · exact .inl (.eof _)

theorem leaf_plain {flow : Bool} {ind : Int} {lb : Break} {c : Nat} {cs : Text} {ps : List Piece} (p0 : c ≠ 0xFEFF)
    (p1 : PlainFirst flow c cs) (p2 : PlainOk flow false (c :: cs)) (p3 : startsDocument (c :: cs) = false)
    (h2 : PlainPieces flow ind 0 (.lit c :: ps)) (h3 : pValue (.lit c :: ps) = c :: cs) :
    LeafScan flow ind lb 0 (fun br => br) (Fol flow) (pText lb (.lit c :: ps)) [.scalar (c :: cs) .plain] := by
  have hbz : isBlankz c = false := by rw [isBlankz_of_plain p2.1 p2.2.1]; exact p1.space
  have hst : TokStart (pText lb (.lit c :: ps)) := by
    refine .cons (pText lb ps) ⟨?_, ?_, ?_, p0⟩
    · revert hbz; unfold isBlankz; intro h; rw [Bool.or_eq_false_iff] at h; exact h.1
    · revert hbz; unfold isBlankz isBreakz; intro h; simp only [Bool.or_eq_false_iff] at h; exact h.2.1
    · exact (start_flow p1.start).2
  refine ⟨hst, fun {C X u ks0 br k t} h hfl hi hc hf hk hfr ht hfo hB => ?_⟩
  have hfu := h.fuel
  obtain ⟨g1, _, g2⟩ := lw_plain (m := markOf u) (flow := flow) (pi := X.ind) (lb := lb) p1 p2 p3 (plainPieces_le (by omega) h2) h3 (fun hx => hc hx) (hfo.plain ht)
    (h.ends (by simp [pText, Piece.text]))
  have e : pText lb (.lit c :: ps) ++ (gap lb br k ++ t) = (pText lb (.lit c :: ps) ++ gap lb br k) ++ t := by rw [List.append_assoc]
  have h' : Bd C X u ((pText lb (.lit c :: ps) ++ gap lb br k) ++ t) := by rw [← e]; exact h
  have := h'.plain (flat_of hfl hc) (d := .scalar (c :: cs) .plain) (nl := br) (by rw [hfl, ← e]; exact g1) (by rw [hfl, ← e]; exact g2 _ (by omega))
    (by simp) hf hB
  have := (show Raw C _ _ (gap lb false 0 ++ t) from this).leaf hk (by
    rw [gap_none, List.append_nil]
    exact hfr _ (List.prefix_refl _)) ht
  rw [gap_none, List.append_nil] at this
  simpa using this

/-- Properties, a space, and what they belong to. -/
theorem LeafScan.comp {flow : Bool} {ind : Int} {lb : Break} {h : Nat} {al : Bool → Bool} {fol : Int → Bool → Nat → Text → Prop} {b1 b2 : Text} {ts1 ts2 : List TokData}
    (h1 : LeafScan flow ind lb 0 (fun br => br && !flow) PropFol b1 ts1) (hn : NoBreaks b1) (h2 : LeafScan flow ind lb h al fol b2 ts2) :
    LeafScan flow ind lb h al fol (b1 ++ 32 :: b2) (ts1 ++ ts2) := by
  refine ⟨h1.start.append _, fun {C X u ks0 br k t} hb hfl hi hc hf hk hfr ht hfo hB => ?_⟩
  have e : b1 ++ 32 :: b2 ++ (gap lb br k ++ t) = b1 ++ (gap lb false 1 ++ (b2 ++ (gap lb br k ++ t))) := by simp [gap]
  have e2 : ∀ r : Text, b1 ++ 32 :: b2 ++ r = (b1 ++ gap lb false 1) ++ (b2 ++ r) := by intro r; simp [gap]
  rw [e] at hb
  have g1 := h1.scan hb hfl hi hc hf hk (fun w hw => hfr w (by
    rw [e2]; exact hw.trans (List.prefix_append _ _))) (h2.start.append _) (.inr (by omega)) (by omega)
  have hcol : lastColumn (u ++ (b1 ++ gap lb false 1)) = lastColumn u + b1.length + 1 := by
    rw [← List.append_assoc, lastColumn_gap, lastColumn_noBreaks hn]; simp
  have g2 := h2.scan g1 (ks0 := ks0.map (KS.age (u ++ (b1 ++ gap lb false 1)))) hfl hi (fun hx => by
      have := hc hx
      show X.ind ≤ _
      rw [hcol]; omega) (fun hx => by cases hx) (KeysLe.refl _) (fun w hw a ha => by
      obtain ⟨a', ha', rfl⟩ := List.mem_map.mp ha
      refine fresh_age ?_
      rw [List.append_assoc]
      refine hfr _ ?_ a' ha'
      rw [e2]
      exact List.prefix_append_right_inj _ |>.mpr hw) ht hfo hB
  rw [map_age_age] at g2
  simp only [List.append_assoc] at g2 ⊢
  simpa [gap] using g2

/-! ### In block collections -/

/-- The key is not known exactly, and not behind the position. -/
def KS.Upto (u : Text) : KS → Prop
  | .off => True
  | .calm l => l ≤ lineBreaks u
  | .on _ _ _ => False

theorem KS.Upto.vague {a : KS} {u : Text} (h : a.Upto u) : a.Vague := by
  cases a with
  | on _ _ _ => exact h
  | _ => trivial

theorem KS.Upto.gone {a : KS} {u w : Text} (h : a.Upto u) (hl : lineBreaks u < lineBreaks w) : a.age w = .off := by
  cases a with
  | on _ _ _ => exact h.elim
  | off => rfl
  | calm l =>
    have h : l ≤ lineBreaks u := h
    show (if l < lineBreaks w then KS.off else .calm l) = .off
    rw [if_pos (by omega)]

theorem KS.Upto.age {a : KS} {u w w' : Text} (h : a.Upto u) (hl : lineBreaks u ≤ lineBreaks w) : (a.age w').Upto w := by
  cases a with
  | on _ _ _ => exact h.elim
  | off => trivial
  | calm l =>
    have h : l ≤ lineBreaks u := h
    show KS.Upto w (if l < lineBreaks w' then KS.off else .calm l)
    split
    · trivial
    · exact Nat.le_trans h hl

/-- The key in front of a node that is not a simple key. -/
theorem touch_one {X : View} {u : Text} {a : KS} (hk : X.ks = [a]) (ha : a.Upto u) : ∃ a', (X.touch u).ks = [a'] ∧ a'.Upto u := by
  unfold View.touch View.key
  split
  · rw [hk]; exact ⟨_, rfl, Nat.le_refl _⟩
  · exact ⟨a, hk, ha⟩

/-- A node that is not a simple key. -/
structure NodeScan (flow : Bool) (ind : Int) (lb : Break) (h : Nat) (b : Text) (ts : List TokData) : Prop where
  start : TokStart b
  scan : ∀ {C : Cx} {X : View} {u : Text} {br : Bool} {k : Nat} {t : Text}, Bd C X u (b ++ (gap lb br k ++ t)) → (X.flow != 0) = flow →
    X.ind < ind → (flow = false → X.ind < (lastColumn u : Nat)) → X.ks ≠ [] → (∀ a ∈ X.ks, a.Vague) → TokStart t → Fol flow X.ind br k t →
    X.depth + h ≤ C.B →
    ∃ al, (flow = false → br = true → al = true) ∧
      Bd C { X with ds := X.ds ++ ts, ks := (X.touch u).ks.map (KS.age (u ++ (b ++ gap lb br k))), al := al } (u ++ (b ++ gap lb br k)) t

theorem free_of {X : View} (h : X.ks ≠ []) (hv : ∀ a ∈ X.ks, a.Vague) : X.Free := by
  unfold View.Free
  cases hk : X.ks with
  | nil => exact absurd hk h
  | cons a as => exact ⟨a, as, rfl, (hv a (by rw [hk]; exact List.mem_cons_self)).free⟩

theorem ne_of_flow {X : View} {flow : Bool} {u : Text} (hfl : (X.flow != 0) = flow) (hc : flow = false → X.ind < (lastColumn u : Nat)) :
    X.flow = 0 → X.ind ≠ (lastColumn u : Nat) := by
  intro h
  have : flow = false := by rw [← hfl, h]; rfl
  have := hc this
  omega

theorem LeafScan.node {flow : Bool} {ind : Int} {lb : Break} {h : Nat} {al : Bool → Bool} {b : Text} {ts : List TokData} (hs : LeafScan flow ind lb h al (Fol flow) b ts)
    (hal : flow = false → al true = true) : NodeScan flow ind lb h b ts := by
  refine ⟨hs.start, fun {C X u br k t} hb hfl hi hcol hne hv ht hfo hB => ⟨al br, fun h1 h2 => by rw [h2]; exact hal h1, ?_⟩⟩
  exact hs.scan hb hfl hi (fun hx => by have := hcol hx; omega) (fun _ => free_of hne hv) (save_le (ne_of_flow hfl hcol))
    (fun w _ x hx => (touch_vague hv x hx).fresh) ht hfo hB

/-- Properties, a space, and what they belong to. -/
theorem LeafScan.compNode {flow : Bool} {ind : Int} {lb : Break} {h : Nat} {b1 b2 : Text} {ts1 ts2 : List TokData}
    (h1 : LeafScan flow ind lb 0 (fun br => br && !flow) PropFol b1 ts1) (hn : NoBreaks b1) (h2 : NodeScan flow ind lb h b2 ts2) :
    NodeScan flow ind lb h (b1 ++ 32 :: b2) (ts1 ++ ts2) := by
  refine ⟨h1.start.append _, fun {C X u br k t} hb hfl hi hcol hne hv ht hfo hB => ?_⟩
  have e : b1 ++ 32 :: b2 ++ (gap lb br k ++ t) = b1 ++ (gap lb false 1 ++ (b2 ++ (gap lb br k ++ t))) := by simp [gap]
  rw [e] at hb
  have g1 := h1.scan hb hfl hi (fun hx => by have := hcol hx; omega) (fun _ => free_of hne hv) (save_le (ne_of_flow hfl hcol))
    (fun w _ x hx => (touch_vague hv x hx).fresh) (h2.start.append _) (.inr (by omega)) (by omega)
  have hcol' : lastColumn (u ++ (b1 ++ gap lb false 1)) = lastColumn u + b1.length + 1 := by
    rw [← List.append_assoc, lastColumn_gap, lastColumn_noBreaks hn]; simp
  obtain ⟨al, g2, g3⟩ := h2.scan g1 hfl hi (fun hx => by
      have := hcol hx
      show X.ind < _
      rw [hcol']; omega) (by
      show (X.touch u).ks.map _ ≠ []
      intro hx
      rw [List.map_eq_nil_iff] at hx
      unfold View.touch View.key at hx
      split at hx
      · cases hx
      · exact hne hx) (vague_age (touch_vague hv)) ht hfo hB
  refine ⟨al, g2, ?_⟩
  have e3 : ∀ (Y : View), Y.al = false → (Y.touch (u ++ (b1 ++ gap lb false 1))) = Y := by
    intro Y hY
    unfold View.touch
    rw [hY]; rfl
  rw [e3 _ (by rfl)] at g3
  simp only [map_age_age] at g3
  simp only [List.append_assoc] at g3 ⊢
  simpa [gap] using g3

/-- A node without block collections in a block collection at the column `pi`. -/
structure LeafBlock (pi : Int) (lb : Break) (h : Nat) (fol : Bool → Nat → Text → Prop) (b : Text) (ts : List TokData) : Prop where
  start : TokStart b
  scan : ∀ {C : Cx} {X : View} {u : Text} {a : KS} {br : Bool} {k : Nat} {t : Text}, Bd C X u (b ++ (gap lb br k ++ t)) → X.flow = 0 → X.ind = pi →
    pi < (lastColumn u : Nat) → X.ks = [a] → a.Upto u → TokStart t → fol br k t → X.depth + h ≤ C.B →
    Bd C { X with ds := X.ds ++ ts, ks := [.off], al := true } (u ++ (b ++ gap lb br k)) t

theorem TokStart.head {b : Text} (h : TokStart b) : ∃ c, b.head? = some c ∧ c ≠ 0xA := by
  obtain ⟨c, r, rfl, _, h, _⟩ := h
  refine ⟨c, rfl, ?_⟩
  rintro rfl
  exact absurd h (by decide)

theorem lineBreaks_gap {u b : Text} {lb : Break} {k : Nat} (h : TokStart b) : lineBreaks u < lineBreaks (u ++ (b ++ gap lb true k)) := by
  obtain ⟨c, h1, h2⟩ := h.head
  obtain ⟨w, d, e, hd⟩ := brk_last lb
  refine lineBreaks_lt (c := d) (d := c) ?_ h2 ?_ hd
  · rw [List.head?_append, h1]; rfl
  · unfold gap
    simp [e]

theorem NodeScan.block {pi ind : Int} {lb : Break} {h : Nat} {b : Text} {ts : List TokData} (hs : NodeScan false ind lb h b ts)
    (hi : pi < ind) : LeafBlock pi lb h (fun br k t => br = true ∧ Dedent pi k t) b ts := by
  refine ⟨hs.start, fun {C X u a br k t} hb hfl hpi hcol hks ha ht hfo hB => ?_⟩
  obtain ⟨rfl, hfo⟩ := hfo
  obtain ⟨a', e, ha'⟩ := touch_one hks ha
  obtain ⟨al, g1, g2⟩ := hs.scan hb (by rw [hfl]; rfl) (by omega) (fun _ => by omega) (by rw [hks]; simp) (fun x hx => by
      rw [hks] at hx
      rw [List.mem_singleton.mp hx]
      exact ha.vague) ht (.inr (.inr ⟨rfl, rfl, by rw [hpi]; exact hfo⟩)) hB
  rw [g1 rfl rfl, e, List.map_cons, List.map_nil, ha'.gone (lineBreaks_gap hs.start)] at g2
  exact g2

theorem LeafScan.compBlock {pi ind : Int} {lb : Break} {h : Nat} {fol : Bool → Nat → Text → Prop} {b1 b2 : Text} {ts1 ts2 : List TokData}
    (h1 : LeafScan false ind lb 0 (fun br => br && !false) PropFol b1 ts1) (hn : NoBreaks b1) (hi : pi < ind) (h2 : LeafBlock pi lb h fol b2 ts2) :
    LeafBlock pi lb h fol (b1 ++ 32 :: b2) (ts1 ++ ts2) := by
  refine ⟨h1.start.append _, fun {C X u a br k t} hb hfl hpi hcol hks ha ht hfo hB => ?_⟩
  have e : b1 ++ 32 :: b2 ++ (gap lb br k ++ t) = b1 ++ (gap lb false 1 ++ (b2 ++ (gap lb br k ++ t))) := by simp [gap]
  rw [e] at hb
  obtain ⟨a', e, ha'⟩ := touch_one hks ha
  have hv : ∀ x ∈ (X.touch u).ks, x.Vague := by
    rw [e]
    intro x hx
    rw [List.mem_singleton.mp hx]
    exact ha'.vague
  have g1 := h1.scan hb (by rw [hfl]; rfl) (by omega) (fun _ => by omega) (fun _ => ⟨a, [], hks, ha.vague.free⟩) (save_le fun _ => by omega)
    (fun w _ x hx => (hv x hx).fresh) (h2.start.append _) (.inr (by omega)) (by omega)
  rw [e, List.map_cons, List.map_nil] at g1
  have hcol' : lastColumn (u ++ (b1 ++ gap lb false 1)) = lastColumn u + b1.length + 1 := by
    rw [← List.append_assoc, lastColumn_gap, lastColumn_noBreaks hn]; simp
  have g2 := h2.scan g1 hfl hpi (by rw [hcol']; omega) rfl (ha'.age (lineBreaks_mono _ _)) ht hfo hB
  simp only [List.append_assoc] at g2 ⊢
  simpa [gap] using g2

/-- A literal or folded scalar. -/
theorem leaf_literal {pi : Int} {lb : Break} {literal : Bool} {body v : Text} {s : Emitter} (hi : BlockIndent s pi)
    (hs : ∀ m rest fin f, BlockRest s lb v rest fin → ((if literal = true then 124 else 62) :: (body ++ rest)).length < f →
      lw (scanBlockScalar f pi literal) (fun tok _ cs => tok.data = .scalar v (if literal = true then .literal else .folded) ∧ cs = fin) m
        ((if literal = true then 124 else 62) :: (body ++ rest))) :
    LeafBlock pi lb 0 (fun br k t => ChompEnd v (if br = true then [0xA] else []) ∧ Dedent pi k t) ((if literal = true then 124 else 62) :: body)
      [.scalar v (if literal = true then .literal else .folded)] := by
  refine ⟨.cons _ (by cases literal <;> decide), fun {C X u a br k t} hb hfl hpi hcol hks ha ht hfo hB => ?_⟩
  obtain ⟨hfo1, hfo2⟩ := hfo
  have hk : k < s.indentCol := by
    obtain ⟨i1, i2, i3⟩ := hi
    rcases hfo2 with h | ⟨h, _⟩
    · rw [if_pos (by omega)] at i3; omega
    · subst h
      split at i3 <;> omega
  have hrest : BlockRest s lb v (gap lb br k ++ t) t := by
    refine ⟨⟨if br = true then [0xA] else [], k, ?_, ?_, hk, hfo1⟩, ht.stops⟩
    · cases br <;> simp [gap, breaksOut, brkOut]
    · intro b hb
      cases br
      · cases hb
      · rw [List.mem_singleton.mp hb]; exact .inl rfl
  have hfu := hb.fuel
  have hb' : Bd C X u ((if literal = true then 124 else 62) :: ((body ++ gap lb br k) ++ t)) := by
    rw [List.append_assoc]; exact hb
  have h1 := hb'.literal (literal := literal) (d := .scalar v (if literal = true then .literal else .folded)) rfl (flat_of_le (by omega)) hfl (by
    rw [hpi, List.append_assoc]
    exact hs _ _ _ _ hrest (by simp only [List.length_append, List.length_cons] at hfu ⊢; omega)) (by simp) ⟨a, [], hks, ha.vague.free⟩ hB
  have h2 := Raw.gap (show Raw C _ _ (gap lb false 0 ++ t) from h1) ht (by
    intro x hx
    have hx : x ∈ KS.off :: X.ks.tail := hx
    rw [hks] at hx
    rw [List.mem_singleton.mp hx]; trivial)
  rw [gap_none, List.append_nil] at h2
  simp only [View.push, View.allow, View.key, hks, List.tail_cons, List.map_cons, List.map_nil, KS.age] at h2
  simpa using h2

end LibYaml
