import Verif.Proofs.NodeWrite

/-!
# Scalars: the text that is written, and the token it is read as
-/

namespace LibYaml

open Spec

/-! ### Plain and quoted scalars -/

/-- A plain or quoted scalar: what is written, and the state behind it. `ab`: line breaks may be inserted. -/
def InkOut (flow : Bool) (ind : Int) (lb : Break) (v : Text) (st : ScalarStyle) (ab : Bool) (s : Emitter) (t : Text) (s' : Emitter) : Prop :=
  ∃ b al, t = lead s ++ b ∧ LeafScan flow ind lb 0 al (Fol flow) b [.scalar v st] ∧ (flow = false → al true = true) ∧
    (ab = false → Inline v → NoBreaks b ∧ b.length ≤ 2 + 4 * byteLen v) ∧ Kin s s' ∧ s'.whitespace = false ∧ s'.indention = false

theorem tw_inkDouble {flow ab : Bool} {ind : Int} {lb : Break} {v : Text} {s : Emitter} (hl : s.lineBreak = some lb) (hi : 1 ≤ s.indentCol) (hu : ∀ c ∈ v, UScalar c) :
    tw (writeDouble v ab) (fun _ t s' => InkOut flow ind lb v .double ab s t s') s := by
  have h1 := tw_and (tw_and (tw_writeDouble (ab := ab) hl hi hu) (endsInk_writeDouble v ab s)) ((quiet_writeDouble v ab).tw s)
  have fin : ∀ {t s'}, ((∃ ps, Pieces false 0 ps ∧ pValue ps = v ∧ t = lead s ++ 34 :: (pText lb ps ++ [34])) ∧ s'.whitespace = false ∧ s'.indention = false) ∧ Kin s s' →
      (ab = false → Inline v → ∀ b, t = lead s ++ b → NoBreaks b ∧ b.length ≤ 2 + 4 * byteLen v) → InkOut flow ind lb v .double ab s t s' := by
    rintro t s' ⟨⟨⟨ps, k1, k2, k3⟩, k4, k5⟩, k6⟩ hx
    refine ⟨_, fun br => br && !flow, k3, ?_, fun h => by rw [h]; rfl, fun e1 e2 => hx e1 e2 _ k3, k6, k4, k5⟩
    rw [← k2]
    exact leaf_quoted (single := false) k1
  cases ab with
  | true => exact tw_mono h1 fun _ t s' h => fin h fun h => by cases h
  | false =>
    refine tw_mono (tw_and h1 tw_writeDoubleInline) fun _ t s' h => fin h.1 fun _ hv b hb => ?_
    have e := List.append_cancel_left (hb.symm.trans h.2)
    subst e
    constructor
    · intro c hc
      rcases List.mem_cons.mp hc with rfl | hc
      · decide
      · rcases List.mem_append.mp hc with hc | hc
        · exact noBreaks_flatMap (fun c _ => noBreaks_doublePiece _ c) c hc
        · rw [List.mem_singleton.mp hc]; decide
    · have := length_flatMap_le (f := doublePiece s.unicode) (v := v) (n := 4) fun c _ => length_doublePiece _ c
      simp only [List.length_cons, List.length_append, List.length_nil]
      omega

theorem tw_inkSingle {flow ab : Bool} {ind : Int} {lb : Break} {v : Text} {s : Emitter} (hl : s.lineBreak = some lb) (hi : 1 ≤ s.indentCol)
    {u : Bool} (ha : (analyzeScalarData u v).singleQuotedAllowed = true) :
    tw (writeSingle v ab) (fun _ t s' => InkOut flow ind lb v .single ab s t s') s := by
  obtain ⟨a1, a2⟩ := single_allowed ha
  have h1 := tw_and (tw_and (tw_writeSingle (ab := ab) hl hi (fun c hc => (a1 c hc).1) a2) (endsInk_writeSingle v ab s)) ((quiet_writeSingle v ab).tw s)
  have fin : ∀ {t s'}, ((∃ ps, Pieces true 0 ps ∧ pValue ps = v ∧ t = lead s ++ 39 :: (pText lb ps ++ [39])) ∧ s'.whitespace = false ∧ s'.indention = false) ∧ Kin s s' →
      (ab = false → Inline v → ∀ b, t = lead s ++ b → NoBreaks b ∧ b.length ≤ 2 + 4 * byteLen v) → InkOut flow ind lb v .single ab s t s' := by
    rintro t s' ⟨⟨⟨ps, k1, k2, k3⟩, k4, k5⟩, k6⟩ hx
    refine ⟨_, fun br => br && !flow, k3, ?_, fun h => by rw [h]; rfl, fun e1 e2 => hx e1 e2 _ k3, k6, k4, k5⟩
    rw [← k2]
    exact leaf_quoted (single := true) k1
  by_cases hab : ab = false ∧ Inline v
  · obtain ⟨rfl, hv⟩ := hab
    refine tw_mono (tw_and h1 (tw_writeSingleInline hv)) fun _ t s' h => fin h.1 fun _ _ b hb => ?_
    have e := List.append_cancel_left (hb.symm.trans h.2)
    subst e
    constructor
    · intro c hc
      rcases List.mem_cons.mp hc with rfl | hc
      · decide
      · rcases List.mem_append.mp hc with hc | hc
        · exact noBreaks_flatMap (fun c hc => noBreaks_singlePiece (hv c hc)) c hc
        · rw [List.mem_singleton.mp hc]; decide
    · have := length_flatMap_le (f := singlePiece) (v := v) (n := 4) fun c _ => length_singlePiece c
      simp only [List.length_cons, List.length_append, List.length_nil]
      omega
  · exact tw_mono h1 fun _ t s' h => fin h fun e1 e2 => absurd ⟨e1, e2⟩ hab

theorem tw_inkPlain {flow ab : Bool} {ind : Int} {lb : Break} {v : Text} {s : Emitter} (hl : s.lineBreak = some lb) (hi : 1 ≤ s.indentCol)
    (hi2 : ind ≤ s.indentCol) {u : Bool} (hne : v ≠ [])
    (ha : (if flow = true then (analyzeScalarData u v).flowPlainAllowed else (analyzeScalarData u v).blockPlainAllowed) = true) :
    tw (writePlain v ab) (fun _ t s' => InkOut flow ind lb v .plain ab s t s') s := by
  cases v with
  | nil => exact absurd rfl hne
  | cons c cs =>
    obtain ⟨a1, a2, a3⟩ := plain_allowed ha
    have hbom : c ≠ 0xFEFF := by
      rintro rfl
      exact absurd a2.1 (by decide)
    have hinl : Inline (c :: cs) := by
      intro x hx
      have key : ∀ (w : Text) (k : Bool), PlainOk flow k w → ∀ x ∈ w, isBreak x = false := by
        intro w
        induction w with
        | nil => intro k _ x hx; cases hx
        | cons y w ih =>
          intro k hk x hx
          rcases List.mem_cons.mp hx with rfl | hx
          · exact hk.2.1
          · exact ih _ hk.2.2.2.2.2 x hx
      exact key _ _ a2 x hx
    have h1 := tw_and (tw_and (tw_writePlain (ab := ab) hl hi hi2 a1 a2) (endsInk_writePlain (c :: cs) ab s)) ((quiet_writePlain (c :: cs) ab).tw s)
    have fin : ∀ {t s'}, ((∃ ps, PlainPieces flow ind 0 (.lit c :: ps) ∧ pValue (.lit c :: ps) = c :: cs ∧ t = lead s ++ pText lb (.lit c :: ps)) ∧
          s'.whitespace = false ∧ s'.indention = false) ∧ Kin s s' →
        (ab = false → ∀ b, t = lead s ++ b → NoBreaks b ∧ b.length ≤ 2 + 4 * byteLen (c :: cs)) → InkOut flow ind lb (c :: cs) .plain ab s t s' := by
      rintro t s' ⟨⟨⟨ps, k1, k2, k3⟩, k4, k5⟩, k6⟩ hx
      exact ⟨_, _, k3, leaf_plain hbom a1 a2 a3 k1 k2, fun _ => rfl, fun e1 _ => hx e1 _ k3, k6, k4, k5⟩
    cases ab with
    | true => exact tw_mono h1 fun _ t s' h => fin h fun h => by cases h
    | false =>
      refine tw_mono (tw_and h1 (tw_writePlainInline hne hinl)) fun _ t s' h => fin h.1 fun _ b hb => ?_
      have e := List.append_cancel_left (hb.symm.trans h.2)
      subst e
      exact ⟨.of_inline hinl, by have := length_le_byteLen (c :: cs); omega⟩

/-! ### Block scalars -/

theorem endsLine_brkOut {lb : Break} {c : Nat} (h : isBreak c = true) : EndsLine (brkOut lb c) := by
  unfold brkOut
  split
  · cases lb
    · exact ⟨[], 0xD, rfl, by decide⟩
    · exact ⟨[], 0xA, rfl, by decide⟩
    · exact ⟨[0xD], 0xA, rfl, by decide⟩
  · exact ⟨[], c, rfl, by rw [breakChar_eq]; exact h⟩

/-- How a block scalar with this text ends: behind a line break, or within a line. -/
def EndsAt (v t : Text) (s' : Emitter) : Prop :=
  ∀ c, v.getLast? = some c → if isBreak c = true then EndsLine t ∧ s'.indention = true ∧ s'.whitespace = true ∧ s'.column = 0 else s'.indention = false

theorem EndsAt.append {v t : Text} {s' : Emitter} (h : EndsAt v t s') (u : Text) : EndsAt v (u ++ t) s' := by
  intro c hc
  have := h c hc
  split
  · rename_i hb
    rw [if_pos hb] at this
    exact ⟨this.1.append _, this.2⟩
  · rename_i hb
    rw [if_neg hb] at this
    exact this

theorem EndsAt.cons {c d : Nat} {v t : Text} {s' : Emitter} (h : EndsAt (d :: v) t s') (u : Text) : EndsAt (c :: d :: v) (u ++ t) s' := by
  intro x hx
  exact (h.append u) x (by rw [← hx]; simp)

theorem tw_writeIndent_any {s : Emitter} {Q : Unit → Text → Emitter → Prop} (h : ∀ t l c, Q () t { s with line := l, column := c, whitespace := true, indention := true }) :
    tw writeIndent Q s := by
  cases hn : s.needBreak with
  | true => rw [tw_writeIndent hn]; exact h _ _ _
  | false => rw [tw_writeIndent' hn]; exact h _ s.line _

theorem tw_literalEnds {lb : Break} {v : Text} : ∀ {s : Emitter} {br : Bool}, s.lineBreak = some lb → s.whitespace = true →
    tw (literalLoop v br) (fun _ t s' => EndsAt v t s') s := by
  induction v with
  | nil => intro s br _ _; exact fun c hc => by cases hc
  | cons c v ih =>
    intro s br hl hw
    have fin : ∀ {s1 : Emitter} {b : Bool} (t1 : Text), s1.lineBreak = some lb → s1.whitespace = true →
        (if isBreak c = true then EndsLine t1 ∧ s1.indention = true ∧ s1.column = 0 else s1.indention = false) →
        tw (literalLoop v b) (fun _ u s' => EndsAt (c :: v) (t1 ++ u) s') s1 := by
      intro s1 b t1 h1 h2 h3
      cases v with
      | nil =>
        show EndsAt [c] (t1 ++ []) s1
        intro x hx
        obtain rfl : c = x := by simpa using hx
        rw [List.append_nil]
        split
        · rename_i hb; rw [if_pos hb] at h3; exact ⟨h3.1, h3.2.1, h2, h3.2.2⟩
        · rename_i hb; rw [if_neg hb] at h3; exact h3
      | cons d v => exact tw_mono (ih h1 h2) fun _ u s' h => h.cons t1
    unfold literalLoop
    rw [tw_ite]
    by_cases hb : isBreak c = true
    · rw [if_pos hb, tw_bind, tw_writeBreak hl, tw_bind, tw_modE]
      refine tw_mono (fin (b := true) (brkOut lb c) (s1 := { s with column := 0, line := s.line + 1, indention := true }) hl hw ?_) fun _ u s' h => by simpa using h
      rw [if_pos hb]
      exact ⟨endsLine_brkOut hb, rfl, rfl⟩
    · rw [if_neg hb, tw_bind]
      have k : ∀ (t0 : Text) (s0 : Emitter), s0.lineBreak = some lb → s0.whitespace = true →
          tw (do putC c; modE fun s => { s with indention := false }; literalLoop v false) (fun _ u s' => EndsAt (c :: v) (t0 ++ u) s') s0 := by
        intro t0 s0 h1 h2
        rw [tw_bind, tw_putC, tw_bind, tw_modE]
        refine tw_mono (fin (b := false) (t0 ++ [c]) (s1 := { s0 with column := s0.column + 1, indention := false }) h1 h2 ?_) fun _ u s' h => by simpa using h
        rw [if_neg hb]
      rw [tw_whenE]
      split
      · exact tw_writeIndent_any fun t l col => k t _ hl rfl
      · exact k [] s hl hw

theorem tw_foldedEnds {lb : Break} {v : Text} : ∀ {s : Emitter} {br ls : Bool}, s.lineBreak = some lb → s.whitespace = true →
    tw (foldedLoop v br ls) (fun _ t s' => EndsAt v t s') s := by
  induction v with
  | nil => intro s br ls _ _; exact fun c hc => by cases hc
  | cons c v ih =>
    intro s br ls hl hw
    have fin : ∀ {s1 : Emitter} {b l : Bool} (t1 : Text), s1.lineBreak = some lb → s1.whitespace = true →
        (if isBreak c = true then EndsLine t1 ∧ s1.indention = true ∧ s1.column = 0 else s1.indention = false) →
        tw (foldedLoop v b l) (fun _ u s' => EndsAt (c :: v) (t1 ++ u) s') s1 := by
      intro s1 b l t1 h1 h2 h3
      cases v with
      | nil =>
        show EndsAt [c] (t1 ++ []) s1
        intro x hx
        obtain rfl : c = x := by simpa using hx
        rw [List.append_nil]
        split
        · rename_i hb; rw [if_pos hb] at h3; exact ⟨h3.1, h3.2.1, h2, h3.2.2⟩
        · rename_i hb; rw [if_neg hb] at h3; exact h3
      | cons d v => exact tw_mono (ih h1 h2) fun _ u s' h => h.cons t1
    unfold foldedLoop
    rw [tw_ite]
    by_cases hb : isBreak c = true
    · rw [if_pos hb, tw_bind]
      have k : ∀ (t0 : Text) (s0 : Emitter), s0.lineBreak = some lb → s0.whitespace = true →
          tw (do writeBreak c; modE fun s => { s with indention := true }; foldedLoop v true ls) (fun _ u s' => EndsAt (c :: v) (t0 ++ u) s') s0 := by
        intro t0 s0 h1 h2
        rw [tw_bind, tw_writeBreak h1, tw_bind, tw_modE]
        refine tw_mono (fin (b := true) (l := ls) (t0 ++ brkOut lb c) (s1 := { s0 with column := 0, line := s0.line + 1, indention := true }) h1 h2 ?_) fun _ u s' h => by simpa using h
        rw [if_pos hb]
        exact ⟨(endsLine_brkOut hb).append _, rfl, rfl⟩
      rw [tw_whenE]
      split
      · rw [tw_putBreak]; exact k _ { s with column := 0, line := s.line + 1 } hl hw
      · exact k [] s hl hw
    · rw [if_neg hb, tw_bind]
      have k : ∀ (f : Bool) (t0 : Text) (s0 : Emitter), s0.lineBreak = some lb → s0.whitespace = true →
          tw (do let s ← getE
                 (if !br && isSpace c && !isSpace (nextC v) && s.overWidth then writeIndent else putC c)
                 modE fun s => { s with indention := false }
                 foldedLoop v false f) (fun _ u s' => EndsAt (c :: v) (t0 ++ u) s') s0 := by
        intro f t0 s0 h1 h2
        rw [tw_bind, tw_getE, tw_bind, tw_ite]
        split
        · refine tw_writeIndent_any fun t l col => ?_
          rw [tw_bind, tw_modE]
          refine tw_mono (fin (b := false) (l := f) (t0 ++ t) (s1 := { s0 with line := l, column := col, whitespace := true, indention := false }) h1 rfl ?_) fun _ u s' h => by simpa using h
          rw [if_neg hb]
        · rw [tw_putC, tw_bind, tw_modE]
          refine tw_mono (fin (b := false) (l := f) (t0 ++ [c]) (s1 := { s0 with column := s0.column + 1, indention := false }) h1 h2 ?_) fun _ u s' h => by simpa using h
          rw [if_neg hb]
      rw [tw_whenE]
      split
      · exact tw_writeIndent_any fun t l col => k _ t _ hl rfl
      · exact k _ [] s hl hw

theorem tw_writeLiteralEnds {lb : Break} {v : Text} {s : Emitter} (hl : s.lineBreak = some lb) : tw (writeLiteral v) (fun _ t s' => EndsAt v t s') s := by
  unfold writeLiteral
  rw [tw_bind, tw_writeIndicator, tw_bind]
  refine tw_mono ((quiet_writeHints v).tw _) fun _ t s1 hk => ?_
  rw [tw_bind, tw_putBreak, tw_bind, tw_setWs]
  have e : s1.lineBreak = some lb := by rw [hk]; exact hl
  exact tw_mono (tw_literalEnds (lb := lb) e rfl) fun _ u s' h => (((h.append _).append _).append _).append _

theorem tw_writeFoldedEnds {lb : Break} {v : Text} {s : Emitter} (hl : s.lineBreak = some lb) : tw (writeFolded v) (fun _ t s' => EndsAt v t s') s := by
  unfold writeFolded
  rw [tw_bind, tw_writeIndicator, tw_bind]
  refine tw_mono ((quiet_writeHints v).tw _) fun _ t s1 hk => ?_
  rw [tw_bind, tw_putBreak, tw_bind, tw_setWs]
  have e : s1.lineBreak = some lb := by rw [hk]; exact hl
  exact tw_mono (tw_foldedEnds (lb := lb) e rfl) fun _ u s' h => (((h.append _).append _).append _).append _

/-- Whether the text ends within a line. -/
def openLine (v : Text) : Bool := !(v.getLast?.any isBreak)

theorem chompEnd_open {v : Text} (hne : v ≠ []) : ChompEnd v (if openLine v = true then [0xA] else []) := by
  obtain ⟨w, c, rfl⟩ : ∃ w c, v = w ++ [c] := ⟨v.dropLast, v.getLast hne, (List.dropLast_concat_getLast hne).symm⟩
  unfold ChompEnd openLine chompFor
  simp only [List.getLast?_append, List.getLast?_singleton, Option.some_or, Option.any_some, List.reverse_append, List.reverse_cons,
    List.reverse_nil, List.nil_append, List.cons_append]
  generalize w.reverse = r
  cases h : isBreak c with
  | false =>
    have : (chompHint (c :: r)).1 = [45] := by
      cases r with
      | nil => simp [chompHint, h]
      | cons e r => simp [chompHint, h]
    rw [this]
    simp
  | true =>
    match r with
    | [] => simp [chompHint, h]
    | e :: r => cases h' : isBreak e <;> simp [chompHint, h, h']

/-- A literal or folded scalar: what is written, and the state behind it. -/
def BlkOut (pi : Int) (lb : Break) (v : Text) (st : ScalarStyle) (s : Emitter) (t : Text) (s' : Emitter) : Prop :=
  ∃ b fol, t = lead s ++ b ∧ LeafBlock pi lb 0 fol b [.scalar v st] ∧ (∀ k r, Dedent pi k r → fol (openLine v) k r) ∧
    (openLine v = false → EndsLine b ∧ s'.indention = true ∧ s'.whitespace = true ∧ s'.column = 0) ∧
    (openLine v = true → s'.indention = false) ∧ Kin s s'

theorem EndsLine.tail {x y : Text} (h : EndsLine (x ++ y)) (hy : y ≠ []) : EndsLine y := by
  obtain ⟨w, c, e, hc⟩ := h
  obtain ⟨w', c', rfl⟩ : ∃ w c, y = w ++ [c] := ⟨y.dropLast, y.getLast hy, (List.dropLast_concat_getLast hy).symm⟩
  rw [← List.append_assoc] at e
  obtain ⟨_, e⟩ := List.append_inj' e rfl
  cases e
  exact ⟨w', c, rfl, hc⟩

theorem blkOut_of {literal : Bool} {pi : Int} {lb : Break} {v t : Text} {s s' : Emitter} (h : BlockOut literal s lb v t) (hne : v ≠ [])
    (hp : ∀ c ∈ v, isPrintable c = true) (hi : BlockIndent s pi) (he : EndsAt v t s') (hk : Kin s s') :
    BlkOut pi lb v (if literal = true then .literal else .folded) s t s' := by
  obtain ⟨body, h1, h2⟩ := lw_blockOut h hne hp hi
  obtain ⟨c, hc⟩ : ∃ c, v.getLast? = some c := ⟨v.getLast hne, List.getLast?_eq_some_getLast hne⟩
  have he := he c hc
  have ho : openLine v = !isBreak c := by unfold openLine; rw [hc]; rfl
  refine ⟨_, _, h1, leaf_literal hi h2, fun k r hd => ⟨chompEnd_open hne, hd⟩, fun h => ?_, fun h => ?_, hk⟩
  · rw [ho] at h
    rw [if_pos (by simpa using h), h1] at he
    exact ⟨he.1.tail (by simp), he.2⟩
  · rw [ho] at h
    rw [if_neg (by simpa using h)] at he
    exact he

theorem tw_blkLiteral {pi : Int} {lb : Break} {v : Text} {s : Emitter} (hl : s.lineBreak = some lb) (hi : BlockIndent s pi) {u : Bool} (hne : v ≠ [])
    (ha : (analyzeScalarData u v).blockAllowed = true) : tw (writeLiteral v) (fun _ t s' => BlkOut pi lb v .literal s t s') s := by
  obtain ⟨a1, a2⟩ := block_allowed hne ha
  have hc : 1 ≤ s.indentCol := by
    obtain ⟨i1, i2, i3⟩ := hi
    split at i3 <;> omega
  refine tw_mono (tw_and (tw_and (tw_writeLiteral hl hc hi.low a1) (tw_writeLiteralEnds hl)) ((quiet_writeLiteral v).tw s)) fun _ t s' h => ?_
  exact blkOut_of (literal := true) h.1.1 hne a1 hi h.1.2 h.2

theorem tw_blkFolded {pi : Int} {lb : Break} {v : Text} {s : Emitter} (hl : s.lineBreak = some lb) (hi : BlockIndent s pi) {u : Bool} (hne : v ≠ [])
    (ha : (analyzeScalarData u v).blockAllowed = true) (hb : NoBlankLine v) : tw (writeFolded v) (fun _ t s' => BlkOut pi lb v .folded s t s') s := by
  obtain ⟨a1, a2⟩ := block_allowed hne ha
  have hc : 1 ≤ s.indentCol := by
    obtain ⟨i1, i2, i3⟩ := hi
    split at i3 <;> omega
  refine tw_mono (tw_and (tw_and (tw_writeFolded hl hc hi.low a1 a2 (hb _)) (tw_writeFoldedEnds hl)) ((quiet_writeFolded v).tw s)) fun _ t s' h => ?_
  exact blkOut_of (literal := false) h.1.1 hne a1 hi h.1.2 h.2

end LibYaml
