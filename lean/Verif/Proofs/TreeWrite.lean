import Verif.Proofs.FlowWrite

/-!
# Block collections: the text that is written, and the tokens it is read as
-/

namespace LibYaml

open Spec

/-! ### The parts of a block collection -/

/-- The line behind a node: it has to be ended (`brx`), or the node has ended it. -/
structure Onward (brx : Bool) (s : Emitter) : Prop where
  goes : brx = true → s.indention = false
  done : brx = false → s.indention = true ∧ s.whitespace = true ∧ s.column = 0

/-- The first token of a block collection. -/
def blockT (mp : Bool) : TokData := if mp = true then .blockMappingStart else .blockSequenceStart
def nextB (mp : Bool) : EState := if mp = true then .blockMappingKey else .blockSequenceItem
def listB (mp : Bool) : Nt := if mp = true then .blockPairs else .blockEntries

/-- The step of an item behind the indentation. -/
def itemTailB : Bool → EvData → EM Unit
  | false, e => do
    writeIndicator [c! '-'] true false true
    pushStateE .blockSequenceItem
    emitNode e false true false false
  | true, e => do
    if (← getE).simpleKey then
      pushStateE .blockMappingSimpleValue
      emitNode e false false true true
    else
      writeIndicator [c! '?'] true false true
      pushStateE .blockMappingValue
      emitNode e false false true false

/-- A sequence that is not indented. -/
def Emitter.atSame (s : Emitter) (mp : Bool) : Bool := !mp && s.mappingContext && !s.indention

/-- The step of an item. -/
def emitBlock (mp : Bool) (e : EvData) (first : Bool) : EM Unit := do
  whenE first (do increaseIndent false ((← getE).atSame mp))
  if e = endE mp then do popIndent; popStateE
  else do writeIndent; itemTailB mp e

theorem step_block {mp first : Bool} {e : EvData} {s : Emitter} (h : s.state = if first = true then blockS mp else nextB mp) {Q : Unit → Text → Emitter → Prop} :
    tw (emitterStep e) Q s ↔ tw (emitBlock mp e first) Q s := by
  unfold emitterStep
  rw [tw_bind, tw_getE, h]
  cases mp <;> cases first <;> exact Iff.rfl

/-- The tokens in front mean these events. -/
def MeansFirst (T : List TagDir) (mp : Bool) (tk : List TokData) (w : List EvData) : Prop :=
  ∀ tk' w', Means T (listB mp) tk' w' → Means T (listB mp) (tk ++ tk') (w ++ w')

theorem Means.nilB (T : List TagDir) (mp : Bool) : Means T (listB mp) [] [] := by
  cases mp
  · exact ⟨_, .entriesNil, .nil⟩
  · exact ⟨_, .pairsNil, .nil⟩

/-- A scalar that may be written as nothing. -/
def Bare (w : List EvData) : Prop := ∃ t q st, (st = .any ∨ st = .plain) ∧ w = [.scalar none t [] true q st]

/-- The tokens of a node that may have no text. -/
def MeansOpt (T : List TagDir) (m : Bool) (tk : List TokData) (w : List EvData) : Prop := (tk = [] ∧ Bare w) ∨ Means T (.node true m) tk w

theorem MeansOpt.opt {T : List TagDir} {m : Bool} {tk : List TokData} {w : List EvData} (h : MeansOpt T m tk w) : Means T (.opt true m) tk w := by
  rcases h with ⟨rfl, t, q, st, _, rfl⟩ | ⟨evs, h1, h2⟩
  · exact ⟨_, .missing, forall2_one (.scalar _ _ _ _ (.inr (.inl ⟨rfl, .inl ⟨rfl, rfl⟩⟩)))⟩
  · exact ⟨_, .present h1, h2⟩

theorem means_entry {T : List TagDir} {tk : List TokData} {w : List EvData} (h : MeansOpt T false tk w) : MeansFirst T false (.blockEntry :: tk) w := by
  intro tk' w' h'
  obtain ⟨evs, h1, h2⟩ := h.opt
  obtain ⟨evs', h1', h2'⟩ := h'
  exact ⟨_, .entriesCons h1 h1', forall2_append h2 h2'⟩

theorem means_pair {T : List TagDir} {tk tv : List TokData} {k v : List EvData} (h : Means T (.opt true true) tk k) (hv : MeansOpt T true tv v) :
    MeansFirst T true (.key :: (tk ++ .value :: tv)) (k ++ v) := by
  intro tk' w' h'
  obtain ⟨evs, h1, h2⟩ := h
  obtain ⟨evv, h3, h4⟩ := hv.opt
  obtain ⟨evs', h1', h2'⟩ := h'
  refine ⟨evs ++ evv ++ evs', ?_, forall2_append (forall2_append h2 h4) h2'⟩
  have := Gram.pairsCons h1 (.value h3) h1'
  simpa [listB] using this

/-! ### Nodes -/

/-- What a node leaves behind. -/
def TreeOut (T : List TagDir) (lb : Break) (al m : Bool) (w : List EvData) (c : Core) (s : Emitter) (pre t : Text) (s' : Emitter) : Prop :=
  ∃ brx h tk, BlockScan s.indent lb al brx h (pre ++ t) tk ∧ (s.whitespace = false → Sep brx t) ∧ Deep h w ∧ MeansOpt T m tk w ∧ s'.core = c ∧ Onward brx s'

/-- Where a node may begin. -/
structure Site (s : Emitter) (mc : Bool) : Prop where
  map : mc = true → 0 ≤ s.indent
  col : s.indention = true → (s.column : Int) = s.indent + 1 ∧ (s.indent = -1 → s.whitespace = true)

/-- The text in front of the root of a document. -/
def Pre (lb : Break) (s : Emitter) (al : Bool) (pre : Text) : Prop :=
  (pre = [] ∧ al = s.indention) ∨ (pre = gap lb true 0 ∧ s.indent = -1 ∧ s.whitespace = true ∧ s.canonical = true)

/-- A node outside flow collections. -/
def NodeB (w : List EvData) : Prop :=
  ∃ e es, w = e :: es ∧ startsNode e ∧ ∀ {T : List TagDir} {lb : Break} {s : Emitter} {x : EState} {xs : List EState} {root sq mc al : Bool} {pre : Text} {R : Text → Emitter → Prop},
    Ctx T lb s.core → s.flowLevel = 0 → Noted T s e → Peek e es s.events → s.states = x :: xs → Fits T s.canonical w → Site s mc → Pre lb s al pre →
    (∀ t s', TreeOut T lb al mc w (s.core.pop x xs) s pre t s' → R t s') → WritesFrom (emitNode e root sq mc false) es R s

theorem pre_lead {lb : Break} {s : Emitter} {al : Bool} {pre : Text} (h : Pre lb s al pre) : ∃ br0 k0, pre ++ lead s = gap lb br0 k0 ∧ (br0 = true → s.indent < (k0 : Int)) := by
  rcases h with ⟨rfl, _⟩ | ⟨rfl, h1, h2, _⟩
  · cases hw : s.whitespace with
    | true => exact ⟨false, 0, by unfold lead; rw [hw]; rfl, fun h => by cases h⟩
    | false => exact ⟨false, 1, by unfold lead; rw [hw]; rfl, fun h => by cases h⟩
  · exact ⟨true, 0, by unfold lead; rw [h2]; simp, fun _ => by omega⟩

theorem sep_lead {s : Emitter} {brx : Bool} {b : Text} (h : s.whitespace = false) : Sep brx (lead s ++ b) := by
  rw [lead_false h]
  exact .inr ⟨32, b, rfl, by decide⟩

/-- A node without block collections. -/
theorem tree_leaf {T : List TagDir} {lb : Break} {al m : Bool} {w : List EvData} {c : Core} {s s' : Emitter} {pre b : Text} {h : Nat} {fol : Bool → Nat → Text → Prop} {brx : Bool}
    {tk : List TokData} (hs : LeafBlock s.indent lb h fol b tk) (hfol : ∀ k t, Dedent s.indent k t → fol brx k t) (hlast : brx = false → EndsLine b) (hp : Pre lb s al pre)
    (hd : Deep h w) (hm : Means T (.node true m) tk w) (hc : s'.core = c) (ha : Onward brx s') : TreeOut T lb al m w c s pre (lead s ++ b) s' := by
  obtain ⟨br0, k0, e, h0⟩ := pre_lead hp
  refine ⟨brx, h, tk, ?_, fun hw => sep_lead hw, hd, .inr hm, hc, ha⟩
  rw [← List.append_assoc, e]
  exact hs.scans hfol hlast h0

theorem tree_inline {T : List TagDir} {lb : Break} {al m : Bool} {w : List EvData} {c : Core} {s s' : Emitter} {pre t : Text}
    (ho : InlineOut T lb false (s.indent + 1) w c s t s') (hp : Pre lb s al pre) : TreeOut T lb al m w c s pre t s' := by
  obtain ⟨b, h, tk, rfl, h1, h2⟩ := ho
  exact tree_leaf (h1.scan.block (pi := s.indent) (by omega)) (brx := true) (fun k t h => ⟨rfl, h⟩) (fun h => by cases h) hp h1.deep (h1.means true m) h2.core
    ⟨fun _ => h2.ind, fun h => by cases h⟩

theorem Ctx.one {T : List TagDir} {lb : Break} {s : Emitter} (h : Ctx T lb s.core) : s.indent + 1 ≤ s.deeper true false := by
  have := h.deeper
  omega

theorem nodeB_alias (a : Text) : NodeB [.alias a] :=
  ⟨_, _, rfl, trivial, fun _ _ hn _ hx hf _ hp hR => inline_alias (hf _ List.mem_cons_self).1 hn hx fun _ _ ho => hR _ _ (tree_inline ho hp)⟩

theorem nodeB_scalar (a t : Option Text) (v : Text) (p q : Bool) (st : ScalarStyle) : NodeB [.scalar a t v p q st] := by
  refine ⟨_, _, rfl, trivial, fun {T lb s x xs root sq mc al pre R} hc hfl hn _ hx hf hsite hp hR => Writes.done ?_⟩
  obtain ⟨hg, hf⟩ := hf _ List.mem_cons_self
  unfold emitNode
  rw [tw_bind, tw_modE]
  refine tw_emitScalar (T := T) (lb := lb) (flow := false) (ind := s.indent + 1) (x := x) (xs := xs) (a := a) (t := t) (v := v) (by exact hc)
    (by exact (decide_eq_false (fun h => h hfl)).symm) (by exact hc.one) (by exact hg) hf (by exact hn.congr rfl) (by exact hx) fun y s' ho hcore => hR _ _ ?_
  cases ho with
  | ink h1 h2 h3 h4 h5 h6 h7 h8 => exact tree_inline ⟨_, 0, _, by simpa [lead] using h1, inline_scalar h2 h3 h4 h5, hcore, h7, h8⟩ hp
  | none _ _ h3 h4 h5 h6 h7 hst h8 h9 =>
    subst h4 h5 h6 h7
    obtain rfl : pre = [] := by
      rcases hp with ⟨h, _⟩ | ⟨_, _, _, h⟩
      · exact h
      · exact absurd (h.symm.trans h3) (by simp)
    exact ⟨true, 0, [], block_missing, fun _ => .inl ⟨rfl, rfl⟩, .zero _, .inl ⟨rfl, _, _, _, hst, rfl⟩, hcore, fun _ => h9, fun h => by cases h⟩
  | empty _ _ h3 h4 h5 h6 h7 h8 =>
    subst h3
    rw [h4]
    exact tree_leaf (s := s) ((h5.scan false (s.indent + 1)).propBlock (pi := s.indent) (by omega)) (brx := true) (fun k t h => ⟨rfl, h⟩) (fun h => by cases h) hp (.zero _)
      ⟨_, .empty h5.props h5.ne, forall2_one (.scalar _ _ _ _ h6.alikeEmpty)⟩ hcore ⟨fun _ => h8, fun h => by cases h⟩
  | block _ _ h1 h2 h3 h4 h5 h6 h7 =>
    rw [h1]
    exact tree_leaf (s := s) h2 (brx := openLine v) h5 (fun h => (h6 h).1) hp (.zero _) ⟨_, .scalar v _ h3, forall2_one (.scalar _ _ _ _ h4.alike)⟩ hcore ⟨h7, fun h => (h6 h).2⟩

/-! ### Items -/

/-- What the step of an item writes behind the indentation, with the events up to the next item. -/
def ItemB (mp : Bool) (w : List EvData) : Prop :=
  ∃ e es, w = e :: es ∧ startsNode e ∧ (opensNode e = true → es ≠ []) ∧
    ∀ {T : List TagDir} {lb : Break} {j : Nat} {s : Emitter} {R : Text → Emitter → Prop},
    Ctx T lb s.core → s.flowLevel = 0 → s.indent = (j : Int) → s.column = j → s.whitespace = true → s.indention = true → Noted T s e → Peek e es s.events → Fits T s.canonical w →
    (∀ t s', (∃ brx h tk, ListScan (blockT mp) j lb brx h t tk ∧ Deep h w ∧ tk ≠ [] ∧ MeansFirst T mp tk w ∧ s'.core = { s.core with state := nextB mp } ∧ Onward brx s') → R t s') →
    WritesFrom (itemTailB mp e) es R s

/-- The text, the tokens and the state behind a list of items. -/
def ListOut (T : List TagDir) (lb : Break) (mp : Bool) (j : Nat) (w : List EvData) (b : Text) (s' : Emitter) : Prop :=
  ∃ brx h tk, ListScan (blockT mp) j lb brx h b tk ∧ Deep h w ∧ tk ≠ [] ∧ Means T (listB mp) tk w ∧ Onward brx s'

/-- The items behind the first one, and the end. -/
def RestB (mp : Bool) (w : List EvData) : Prop :=
  ∀ {T : List TagDir} {lb : Break} {j : Nat} {brx : Bool} {s : Emitter} {x : EState} {xs : List EState} {i : Int} {is : List Int} {R : Text → Emitter → Prop},
    Ctx T lb s.core → s.flowLevel = 0 → s.indent = (j : Int) → s.state = nextB mp → s.states = x :: xs → s.indents = i :: is → Fits T s.canonical w → Onward brx s →
    (∀ t s', s'.core = { s.core with state := x, states := xs, indent := i, indents := is } →
      ((w = [] ∧ t = [] ∧ Onward brx s') ∨ ∃ b, t = gap lb brx j ++ b ∧ ListOut T lb mp j w b s') → R t s') →
    Writes (w ++ [endE mp]) R s

/-- The items of a block collection. -/
def FirstB (mp : Bool) (w : List EvData) : Prop :=
  ∀ {T : List TagDir} {lb : Break} {j : Nat} {s : Emitter} {x : EState} {xs : List EState} {R : Text → Emitter → Prop},
    Ctx T lb s.core → s.flowLevel = 0 → s.deeper false (s.atSame mp) = (j : Int) → (s.indention = true → s.column ≤ j ∧ (s.column = j → s.whitespace = true)) →
    s.state = blockS mp → s.states = x :: xs → Fits T s.canonical w →
    (∀ t s', s'.core = s.core.pop x xs → (∃ b, t = (if s.indention = true then gap lb false (j - s.column) else gap lb true j) ++ b ∧ ListOut T lb mp j w b s') → R t s') →
    Writes (w ++ [endE mp]) R s

/-- `write_indent`, at the end of a line or behind it. -/
theorem tw_lineIndent {lb : Break} {brx : Bool} {j : Nat} {s : Emitter} (hl : s.lineBreak = some lb) (hi : s.indent = (j : Int)) (ho : Onward brx s) {Q : Unit → Text → Emitter → Prop}
    (hQ : ∀ L, Q () (gap lb brx j) { s with line := L, column := j, whitespace := true, indention := true }) : tw writeIndent Q s := by
  have hcol : s.indentCol = j := by unfold Emitter.indentCol; omega
  cases brx with
  | true =>
    have h := ho.goes rfl
    have e : brkText s.lineBreak ++ List.replicate j 0x20 = gap lb true j := by rw [hl]; rfl
    rw [tw_writeIndent (by unfold Emitter.needBreak; rw [h]; rfl), hcol, e]
    exact hQ _
  | false =>
    obtain ⟨h1, h2, h3⟩ := ho.done rfl
    rw [tw_writeIndent' (by unfold Emitter.needBreak; rw [h1, h2, h3]; simp), hcol, h3]
    have := hQ s.line
    simpa [gap] using this

/-- `write_indent`, at the start of a collection. -/
theorem tw_firstIndent {lb : Break} {j : Nat} {s : Emitter} (hl : s.lineBreak = some lb) (hi : s.indent = (j : Int))
    (hc : s.indention = true → s.column ≤ j ∧ (s.column = j → s.whitespace = true)) {Q : Unit → Text → Emitter → Prop}
    (hQ : ∀ L, Q () (if s.indention = true then gap lb false (j - s.column) else gap lb true j) { s with line := L, column := j, whitespace := true, indention := true }) : tw writeIndent Q s := by
  have hcol : s.indentCol = j := by unfold Emitter.indentCol; omega
  cases hn : s.indention with
  | false =>
    have e : brkText s.lineBreak ++ List.replicate j 0x20 = gap lb true j := by rw [hl]; rfl
    rw [tw_writeIndent (by unfold Emitter.needBreak; rw [hn]; rfl), hcol, e]
    rw [hn] at hQ
    exact hQ _
  | true =>
    obtain ⟨h1, h2⟩ := hc hn
    rw [tw_writeIndent' ?_, hcol]
    · have := hQ s.line
      rw [hn, if_pos rfl] at this
      rw [show s.column + (j - s.column) = j by omega]
      simpa [gap] using this
    · unfold Emitter.needBreak
      rw [hn, hcol]
      by_cases he : s.column = j
      · rw [h2 he]; simp; omega
      · simp [he]; omega

theorem tw_blockEnd {mp : Bool} {s : Emitter} {x : EState} {xs : List EState} {i : Int} {is : List Int} (hx : s.states = x :: xs) (hi : s.indents = i :: is) {Q : Unit → Text → Emitter → Prop}
    (hQ : Q () [] { s with state := x, states := xs, indent := i, indents := is }) : tw (emitBlock mp (endE mp) false) Q s := by
  unfold emitBlock
  rw [tw_bind, tw_whenE, if_neg (by simp), tw_ite, if_pos rfl, tw_bind, tw_popIndent hi, tw_popState (x := x) (xs := xs) (by exact hx)]
  exact hQ

theorem restB_nil (mp : Bool) : RestB mp [] := by
  intro T lb j brx s x xs i is R hc hfl hj hst hx hi hf ho hR
  refine Writes.event (endE_leaf mp · _) hc (endE_good _ _) (endE_fit _ _) fun s1 hs _ _ => Writes.done ?_
  rw [step_block (mp := mp) (first := false) (hs.state.trans hst)]
  refine tw_blockEnd (x := x) (xs := xs) (i := i) (is := is) (hs.states.trans hx) (hs.indents.trans hi) (hR _ _ ?_ (.inl ⟨rfl, rfl, ?_⟩))
  · rw [← hs.core]; rfl
  · exact ⟨fun h => hs.ind.trans (ho.goes h), fun h => by
      obtain ⟨h1, h2, h3⟩ := ho.done h
      exact ⟨hs.ind.trans h1, hs.ws.trans h2, hs.col.trans h3⟩⟩

/-- An item and the items behind it. -/
theorem list_cons {T : List TagDir} {lb : Break} {mp : Bool} {j : Nat} {v w : List EvData} {brx : Bool} {h : Nat} {t u : Text} {tk : List TokData} {s3 : Emitter} (hl : level v = 0)
    (g1 : ListScan (blockT mp) j lb brx h t tk) (g2 : Deep h v) (g3 : tk ≠ []) (g4 : MeansFirst T mp tk v)
    (hr : (w = [] ∧ u = [] ∧ Onward brx s3) ∨ ∃ b, u = gap lb brx j ++ b ∧ ListOut T lb mp j w b s3) : ListOut T lb mp j (v ++ w) (t ++ u) s3 := by
  rcases hr with ⟨rfl, rfl, ho⟩ | ⟨b, rfl, brx', h', tk', k1, k2, k3, k4, k5⟩
  · refine ⟨brx, h, tk, by simpa using g1, by simpa using g2, g3, ?_, ho⟩
    simpa using g4 [] [] (.nilB T mp)
  · exact ⟨brx', _, _, g1.append k1, (g2.left _).max (k2.right hl), by simp [g3], g4 _ _ k4, k5⟩

theorem restB_cons {mp : Bool} {v w : List EvData} (hv : ItemB mp v) (hl : level v = 0) (hw : RestB mp w) : RestB mp (v ++ w) := by
  intro T lb j brx s x xs i is R hc hfl hj hst hx hi hf ho hR
  obtain ⟨e, es, rfl, hse, hne, hv⟩ := hv
  have hf1 := hf.left
  rw [List.append_assoc]
  refine Writes.append ?_
  refine Writes.event hne hc (hf1 _ List.mem_cons_self).1 (hf1 _ List.mem_cons_self).2 fun s1 hs hn hp => ?_
  have hstep : ∀ {R}, WritesFrom (emitBlock mp e false) es R s1 → WritesFrom (emitterStep e) es R s1 := by
    intro R h
    unfold WritesFrom at *
    rw [step_block (mp := mp) (first := false) (hs.state.trans hst)]
    exact h
  refine hstep ?_
  unfold emitBlock
  refine WritesFrom.bind ?_
  rw [tw_whenE, if_neg (by simp), if_neg (hse.not_end mp)]
  refine WritesFrom.bind ?_
  have ho1 : Onward brx s1 := ⟨fun h => hs.ind.trans (ho.goes h), fun h => by
      obtain ⟨h1, h2, h3⟩ := ho.done h
      exact ⟨hs.ind.trans h1, hs.ws.trans h2, hs.col.trans h3⟩⟩
  refine tw_lineIndent (lb := lb) (j := j) ((congrArg Core.lineBreak hs.core).trans hc.line) (hs.indent.trans hj) ho1 fun L => ?_
  refine hv (T := T) (lb := lb) (j := j) (by exact hs.core ▸ hc) (by exact hs.flowLevel.trans hfl) (by exact hs.indent.trans hj) rfl rfl rfl (by exact hn.congr rfl) (by exact hp)
    (by show Fits T s1.canonical _; rw [hs.canonical]; exact hf1) fun t s2 ho => ?_
  obtain ⟨brx2, h, tk, g1, g2, g3, g4, g5, g6⟩ := ho
  have hcore : s2.core = { s.core with state := nextB mp } := by rw [g5, ← hs.core]; rfl
  refine hw (T := T) (lb := lb) (j := j) (brx := brx2) (x := x) (xs := xs) (i := i) (is := is) (by rw [hcore]; exact hc.pop _ _) ((congrArg Core.flowLevel hcore).trans hfl)
    ((congrArg Core.indent hcore).trans hj) (congrArg Core.state hcore) ((congrArg Core.states hcore).trans hx) ((congrArg Core.indents hcore).trans hi)
    (by rw [show s2.canonical = s.canonical from congrArg Core.canonical hcore]; exact hf.right) g6 fun u s3 k1 k2 => ?_
  refine hR _ _ (by rw [k1, hcore]) (.inr ⟨t ++ u, by simp, list_cons hl g1 g2 g3 g4 k2⟩)

theorem firstB_cons {mp : Bool} {v w : List EvData} (hv : ItemB mp v) (hl : level v = 0) (hw : RestB mp w) : FirstB mp (v ++ w) := by
  intro T lb j s x xs R hc hfl hj hcol hst hx hf hR
  obtain ⟨e, es, rfl, hse, hne, hv⟩ := hv
  have hf1 := hf.left
  rw [List.append_assoc]
  refine Writes.append ?_
  refine Writes.event hne hc (hf1 _ List.mem_cons_self).1 (hf1 _ List.mem_cons_self).2 fun s1 hs hn hp => ?_
  have hstep : ∀ {R}, WritesFrom (emitBlock mp e true) es R s1 → WritesFrom (emitterStep e) es R s1 := by
    intro R h
    unfold WritesFrom at *
    rw [step_block (mp := mp) (first := true) (hs.state.trans hst)]
    exact h
  refine hstep ?_
  have hat : s1.atSame mp = s.atSame mp := by unfold Emitter.atSame; rw [hs.map, hs.ind]
  have hdeep : s1.deeper false (s1.atSame mp) = (j : Int) := by rw [hat, hs.deeper, hj]
  unfold emitBlock
  refine WritesFrom.bind ?_
  rw [tw_whenE, if_pos rfl, tw_bind, tw_getE, tw_increaseIndent, hdeep, if_neg (hse.not_end mp)]
  refine WritesFrom.bind ?_
  refine tw_firstIndent (lb := lb) (j := j) (by exact (congrArg Core.lineBreak hs.core).trans hc.line) rfl (by rw [← hs.ind, ← hs.col, ← hs.ws] at hcol; exact hcol) fun L => ?_
  have hc1 : Ctx T lb ({ s1.core with indents := s1.indent :: s1.indents, indent := (j : Int) } : Core) := by
    rw [hs.core]
    exact ⟨hc.line, hc.best, hc.tags, hc.good, hc.once, by show -1 ≤ (j : Int); omega, hc.level, fun _ => by show 0 ≤ (j : Int); omega⟩
  refine hv (T := T) (lb := lb) (j := j) (by exact hc1) (by exact hs.flowLevel.trans hfl) rfl rfl rfl rfl (by exact hn.congr rfl) (by exact hp)
    (by show Fits T s1.canonical _; rw [hs.canonical]; exact hf1) fun t s2 ho => ?_
  obtain ⟨brx2, h, tk, g1, g2, g3, g4, g5, g6⟩ := ho
  have hcore : s2.core = { s1.core with state := nextB mp, indents := s1.indent :: s1.indents, indent := (j : Int) } := g5
  refine hw (T := T) (lb := lb) (j := j) (brx := brx2) (x := x) (xs := xs) (i := s1.indent) (is := s1.indents)
    (by rw [hcore]; exact ⟨hc1.line, hc1.best, hc1.tags, hc1.good, hc1.once, hc1.low, hc1.level, hc1.inFlow⟩) ((congrArg Core.flowLevel hcore).trans (hs.flowLevel.trans hfl))
    (congrArg Core.indent hcore) (congrArg Core.state hcore) ((congrArg Core.states hcore).trans (hs.states.trans hx)) (congrArg Core.indents hcore)
    (by rw [show s2.canonical = s1.canonical from congrArg Core.canonical hcore, hs.canonical]; exact hf.right) g6 fun u s3 k1 k2 => ?_
  refine hR _ _ (by rw [k1, hcore, ← hs.core]; rfl) ⟨t ++ u, ?_, list_cons hl g1 g2 g3 g4 k2⟩
  rw [← hs.ind, ← hs.col]
  simp

/-! ### Sequences and mappings -/

theorem itemB_node {w : List EvData} (hG : G .node w) (hw : NodeB w) : ItemB false w := by
  obtain ⟨e, es, rfl, hs, hw⟩ := hw
  refine ⟨e, es, rfl, hs, opens_more hG, fun {T lb j s R} hc hfl hj hcol hws hin hn hp hf hR => ?_⟩
  unfold itemTailB
  refine WritesFrom.bind ?_
  rw [tw_writeIndicator, hws, hin]
  refine WritesFrom.bind ?_
  rw [tw_pushState]
  refine hw (T := T) (lb := lb) (x := .blockSequenceItem) (xs := s.states) (al := true) (pre := []) (hc.push rfl s.state (.blockSequenceItem :: s.states)) (by exact hfl) (by exact hn.congr rfl)
    (by exact hp) rfl (by exact hf) ⟨(fun h => by cases h), fun _ => ⟨?_, ?_⟩⟩ (.inl ⟨rfl, rfl⟩) fun u s2 ho => ?_
  · show ((s.column + 0 + 1 : Nat) : Int) = s.indent + 1
    rw [hj, hcol]; omega
  · intro h
    have : s.indent = -1 := h
    omega
  · obtain ⟨brx, h, tk, g1, g2, g3, g4, g5, g6⟩ := ho
    have g1 : BlockScan s.indent lb true brx h u tk := g1
    rw [hj] at g1
    exact hR _ _ ⟨brx, h, _, list_entry g1 (g2 rfl), g3, by simp, means_entry g4, g5, g6⟩

/-- The value of a pair in a block mapping. -/
theorem block_value {simple br1 : Bool} {v : List EvData} (hG : G .node v) (hv : NodeB v) {T : List TagDir} {lb : Break} {j : Nat} {s : Emitter} {R : Text → Emitter → Prop}
    (hc : Ctx T lb s.core) (hfl : s.flowLevel = 0) (hj : s.indent = (j : Int)) (hst : s.state = if simple = true then .blockMappingSimpleValue else .blockMappingValue)
    (hf : Fits T s.canonical v) (ho : Onward br1 s) (hsim : simple = true → s.indention = false)
    (hR : ∀ t s', (∃ x brx h tk, t = (if simple = true then [] else gap lb br1 j) ++ 58 :: x ∧ BlockScan j lb (!simple) brx h x tk ∧ Sep brx x ∧ Deep h v ∧ MeansOpt T true tk v ∧
      s'.core = { s.core with state := .blockMappingKey } ∧ Onward brx s') → R t s') : Writes v R s := by
  obtain ⟨e, es, rfl, hs, hv⟩ := hv
  refine Writes.event (opens_more hG) hc (hf _ List.mem_cons_self).1 (hf _ List.mem_cons_self).2 fun s1 hs1 hn hp => ?_
  have hstep : ∀ {R}, WritesFrom (emitBlockMappingValue e simple) es R s1 → WritesFrom (emitterStep e) es R s1 := by
    intro R h
    unfold WritesFrom emitterStep at *
    rw [tw_bind, tw_getE, hs1.state.trans hst]
    cases simple <;> exact h
  refine hstep ?_
  unfold emitBlockMappingValue
  refine WritesFrom.bind ?_
  have fin : ∀ {t1 : Text} {s2 : Emitter}, s2.core = s.core → s2.notes = s1.notes → s2.events = s1.events → s2.whitespace = false → s2.indention = !simple →
      (simple = false → s2.column = j + 1) → t1 = (if simple = true then [] else gap lb br1 j) ++ [58] →
      WritesFrom (do pushStateE .blockMappingKey; emitNode e false false true false) es (fun u s'' => R (t1 ++ u) s'') s2 := by
    intro t1 s2 h1 h2 h3 h4 h5 h6 h7
    have hj2 : s2.indent = (j : Int) := (congrArg Core.indent h1).trans hj
    refine WritesFrom.bind ?_
    rw [tw_pushState]
    refine hv (T := T) (lb := lb) (x := .blockMappingKey) (xs := s2.states) (al := !simple) (pre := []) (hc.push h1 s2.state (.blockMappingKey :: s2.states))
      (by exact (congrArg Core.flowLevel h1).trans hfl) (by exact hn.congr h2) (by exact h3 ▸ hp) rfl
      (by show Fits T s2.canonical _; rw [show s2.canonical = s.canonical from congrArg Core.canonical h1]; exact hf)
      ⟨fun _ => by show 0 ≤ s2.indent; omega, fun hi => ?_⟩ (.inl ⟨rfl, h5.symm⟩) fun u s3 ho => ?_
    · have hi : s2.indention = true := hi
      have h8 : simple = false := by rw [h5] at hi; simpa using hi
      have h9 := h6 h8
      refine ⟨by show (s2.column : Int) = s2.indent + 1; omega, fun h => ?_⟩
      have : s2.indent = -1 := h
      omega
    · obtain ⟨brx, h, tk, g1, g2, g3, g4, g5, g6⟩ := ho
      have g1 : BlockScan s2.indent lb (!simple) brx h u tk := g1
      rw [hj2] at g1
      refine hR _ _ ⟨u, brx, h, tk, by rw [h7]; simp, g1, g2 h4, g3, g4, ?_, g6⟩
      rw [g5, ← h1]; rfl
  cases simple with
  | true =>
    rw [if_pos rfl, tw_writeIndicator]
    refine fin hs1.core rfl rfl rfl ?_ (fun h => by cases h) rfl
    show (s1.indention && false) = false
    rw [Bool.and_false]
  | false =>
    rw [if_neg (by simp), tw_bind]
    have ho1 : Onward br1 s1 := ⟨fun h => hs1.ind.trans (ho.goes h), fun h => by
      obtain ⟨h1, h2, h3⟩ := ho.done h
      exact ⟨hs1.ind.trans h1, hs1.ws.trans h2, hs1.col.trans h3⟩⟩
    refine tw_lineIndent (lb := lb) (j := j) ((congrArg Core.lineBreak hs1.core).trans hc.line) (hs1.indent.trans hj) ho1 fun L => ?_
    rw [tw_writeIndicator]
    exact fin (by rw [← hs1.core]; rfl) rfl rfl rfl rfl (fun _ => rfl) rfl

theorem itemB_pair {k v : List EvData} (hGk : G .node k) (hGv : G .node v) (hk : NodeB k) (hkk : NodeK k) (hv : NodeB v) : ItemB true (k ++ v) := by
  obtain ⟨e, es, rfl, hs, hk⟩ := hk
  obtain ⟨e', es', he, _, hkk⟩ := hkk
  cases he
  refine ⟨e, es ++ v, rfl, hs, fun ho => by have := opens_more hGk ho; simp [this], fun {T lb j s R} hc hfl hj hcol hws hin hn hp hf hR => ?_⟩
  have hl1 : level (e :: es) = 0 := level_zero hGk
  have hp1 := hp.left (opens_more hGk)
  unfold itemTailB
  refine WritesFrom.bind ?_
  rw [tw_getE]
  split
  · rename_i hsk
    refine WritesFrom.bind ?_
    rw [tw_pushState]
    refine WritesFrom.append ?_
    refine hkk (T := T) (lb := lb) (flow := false) (ind := (j : Int) + 1) (x := .blockMappingSimpleValue) (xs := s.states) (hc.push rfl s.state (.blockMappingSimpleValue :: s.states))
      (by exact (decide_eq_false (fun h => h hfl)).symm) (by have := hc.one; rw [hj] at this; exact this)
      (by exact hn.congr rfl) (by exact hp1) rfl (by exact hf.left) (by exact hsk) fun u s2 ho => ?_
    obtain ⟨kb, h1, tk1, al, kk, rfl, g1, g2, g3, g4, g5, g6⟩ := ho
    have hcore2 : s2.core = { s.core with state := .blockMappingSimpleValue } := g6.core
    refine block_value (simple := true) (br1 := true) hGv hv (T := T) (lb := lb) (j := j) (by rw [hcore2]; exact hc.pop _ _) ((congrArg Core.flowLevel hcore2).trans hfl)
      ((congrArg Core.indent hcore2).trans hj) (congrArg Core.state hcore2) (by rw [show s2.canonical = s.canonical from congrArg Core.canonical hcore2]; exact hf.right)
      ⟨fun _ => g6.ind, fun h => by cases h⟩ (fun _ => g6.ind) fun w s3 ho => ?_
    obtain ⟨x, brx, h2, tk2, rfl, q1, q2, q3, q4, q5, q6⟩ := ho
    refine hR _ _ ⟨brx, max h1 h2, .key :: (tk1 ++ .value :: tk2), ?_, (g4.left _).max (q3.right hl1), by simp, means_pair ?_ q4, ?_, q6⟩
    · have := list_simple g1 g2 g3 (by omega) q1 q2
      simpa [lead, hws, blockT] using this
    · obtain ⟨ek, m1, m2⟩ := g5 true true
      exact ⟨_, .present m1, m2⟩
    · rw [q5, hcore2]; rfl
  · refine WritesFrom.bind ?_
    rw [tw_writeIndicator, hws, hin]
    refine WritesFrom.bind ?_
    rw [tw_pushState]
    refine WritesFrom.append ?_
    refine hk (T := T) (lb := lb) (x := .blockMappingValue) (xs := s.states) (al := true) (pre := []) (hc.push rfl s.state (.blockMappingValue :: s.states)) (by exact hfl)
      (by exact hn.congr rfl) (by exact hp1) rfl (by exact hf.left) ⟨fun _ => by show 0 ≤ s.indent; omega, fun _ => ⟨?_, ?_⟩⟩ (.inl ⟨rfl, rfl⟩) fun u s2 ho => ?_
    · show ((s.column + 0 + 1 : Nat) : Int) = s.indent + 1
      rw [hj, hcol]; omega
    · intro h
      have : s.indent = -1 := h
      omega
    obtain ⟨br1, h1, tk1, g1, g2, g3, g4, g5, g6⟩ := ho
    have g1 : BlockScan s.indent lb true br1 h1 u tk1 := g1
    rw [hj] at g1
    have hcore2 : s2.core = { s.core with state := .blockMappingValue } := g5
    refine block_value (simple := false) (br1 := br1) hGv hv (T := T) (lb := lb) (j := j) (by rw [hcore2]; exact hc.pop _ _) ((congrArg Core.flowLevel hcore2).trans hfl)
      ((congrArg Core.indent hcore2).trans hj) (congrArg Core.state hcore2) (by rw [show s2.canonical = s.canonical from congrArg Core.canonical hcore2]; exact hf.right)
      g6 (fun h => by cases h) fun w s3 ho => ?_
    obtain ⟨x, brx, h2, tk2, rfl, q1, q2, q3, q4, q5, q6⟩ := ho
    refine hR _ _ ⟨brx, max h1 h2, .key :: (tk1 ++ .value :: tk2), ?_, (g3.left _).max (q3.right hl1), by simp, means_pair g4.opt q4, ?_, q6⟩
    · have := list_complex g1 (g2 rfl) q1 q2
      simpa [blockT] using this
    · rw [q5, hcore2]; rfl

/-! ### Collections -/

theorem Spec.Deep.mono {h h' : Nat} {es : List EvData} (d : Deep h es) (hh : h' ≤ h) : Deep h' es := by
  obtain ⟨p, h1, h2⟩ := d
  exact ⟨p, h1, by omega⟩

theorem empty_peek {mp : Bool} {a t : Option Text} {i : Bool} {st : CollStyle} {s : Emitter} (hp : Peek (startE mp a t i st) [endE mp] s.events) : s.emptyColl mp = true := by
  obtain ⟨r, h1, h2⟩ := hp
  obtain ⟨h2, _⟩ := h2 (by cases mp <;> rfl)
  cases r with
  | nil => cases h2
  | cons y r =>
    cases h2
    cases mp
    · simp only [Emitter.emptyColl, Bool.false_eq_true, if_false, Emitter.emptySequence, h1, startE, endE]
    · simp only [Emitter.emptyColl, if_true, Emitter.emptyMapping, h1, startE, endE]

/-- The items of a block collection make a node. -/
theorem coll_of_list {T : List TagDir} {lb : Break} {mp mc il brx : Bool} {pi : Int} {j h : Nat} {b : Text} {tk : List TokData} {w : List EvData} (a t t' : Option Text) (i : Bool) (st : CollStyle)
    (h1 : ListScan (blockT mp) j lb brx h b tk) (h2 : Deep h w) (h3 : tk ≠ []) (h4 : Means T (listB mp) tk w) (ht : CollTag t i t' (untagged t'))
    (h5 : il = true → mp = false ∧ mc = true ∧ (j : Int) = pi) (h6 : il = false → pi < (j : Int)) :
    ∃ h' tk', CollScan pi j lb brx h' b tk' ∧ Deep h' (startE mp a t i st :: w ++ [endE mp]) ∧
      ∀ p, Properties T p a t' → Means T (.node true mc) (p ++ tk') (startE mp a t i st :: w ++ [endE mp]) := by
  have hd := h2.inside (level_start mp a t i st) [endE mp]
  obtain ⟨evs, m1, m2⟩ := h4
  cases il with
  | true =>
    obtain ⟨rfl, rfl, rfl⟩ := h5 rfl
    exact ⟨h, tk, h1.indentless, hd.mono (by omega), fun p hp => ⟨_, .indentless hp m1 h3, .cons (.sequenceStart _ _ _ ht) (forall2_append m2 (forall2_one .sequenceEnd))⟩⟩
  | false =>
    refine ⟨h + 1, _, h1.coll (h6 rfl), hd, fun p hp => ?_⟩
    have e : p ++ blockT mp :: (tk ++ [.blockEnd]) = p ++ blockT mp :: tk ++ [.blockEnd] := by simp
    rw [e]
    cases mp
    · exact ⟨_, .blockSequence hp m1, .cons (.sequenceStart _ _ _ ht) (forall2_append m2 (forall2_one .sequenceEnd))⟩
    · exact ⟨_, .blockMapping hp m1, .cons (.mappingStart _ _ _ ht) (forall2_append m2 (forall2_one .mappingEnd))⟩

theorem nodeB_coll {mp : Bool} {w : List EvData} (a t : Option Text) (i : Bool) (st : CollStyle) (hF : FirstF mp w) (hB : w ≠ [] → FirstB mp w) :
    NodeB (startE mp a t i st :: w ++ [endE mp]) := by
  refine ⟨startE mp a t i st, w ++ [endE mp], rfl, by cases mp <;> trivial, fun {T lb s x xs root sq mc al pre R} hc hfl hn hp hx hf hsite hpre hR => ?_⟩
  by_cases hflow : s.asFlow mp st
  · exact inline_coll (flow := false) (ind := s.indent + 1) hF hc hc.one hn hx hf hflow fun y s' ho => hR _ _ (tree_inline ho hpre)
  have hw : w ≠ [] := by
    rintro rfl
    exact hflow (.inr (.inr (.inr (empty_peek hp))))
  have hcan : s.canonical = false := by
    cases h : s.canonical with
    | false => rfl
    | true => exact absurd (.inr (.inl h)) hflow
  obtain ⟨rfl, rfl⟩ : pre = [] ∧ al = s.indention := by
    rcases hpre with h | ⟨_, _, _, h⟩
    · exact h
    · exact absurd (h.symm.trans hcan) (by simp)
  have hB : FirstB mp w := by intro T lb j s x xs R; exact hB hw
  have hbest : 2 ≤ s.bestIndent := hc.best.1
  have hlow : -1 ≤ s.indent := hc.low
  refine tw_emitStart (lb := lb) hn fun y s1 hpo => ?_
  rw [if_neg hflow]
  have hcore : s1.core = s.core := by
    rcases hpo with ⟨_, _, _, rfl⟩ | ⟨_, _, _, _, _, h, _⟩
    · rfl
    · exact h.core
  have hmap : s1.mappingContext = mc := by
    rcases hpo with ⟨_, _, _, rfl⟩ | ⟨_, _, _, _, _, h, _⟩
    · rfl
    · unfold Kin at h
      rw [h]
  have hcore2 : Emitter.core { s1 with state := blockS mp } = { s.core with state := blockS mp } := by rw [← hcore]; rfl
  have hind1 : s1.indent = s.indent := congrArg Core.indent hcore
  have hbest1 : s1.bestIndent = s.bestIndent := congrArg Core.bestIndent hcore
  -- the column of the items
  obtain ⟨il, hil⟩ : ∃ il, Emitter.atSame { s1 with state := blockS mp } mp = il := ⟨_, rfl⟩
  have hil' : il = true → mp = false ∧ mc = true ∧ s1.indention = false := by
    rintro rfl
    unfold Emitter.atSame at hil
    simp only [Bool.and_eq_true, Bool.not_eq_true', hmap] at hil
    exact ⟨hil.1.1, hil.1.2, hil.2⟩
  obtain ⟨j, hj, hj1, hj2, hj3⟩ : ∃ j : Nat, Emitter.deeper { s1 with state := blockS mp } false il = (j : Int) ∧ (il = true → (j : Int) = s.indent) ∧ (il = false → s.indent < (j : Int)) ∧
      (il = false → s.indent ≠ -1 → s.indent + 2 ≤ (j : Int)) := by
    unfold Emitter.deeper
    simp only [hind1, hbest1]
    cases il with
    | true =>
      have := hsite.map (hil' rfl).2.1
      exact ⟨s.indent.toNat, by rw [if_neg (by omega), if_neg (by simp)]; omega, fun _ => by omega, (fun h => by cases h), (fun h => by cases h)⟩
    | false =>
      by_cases h : s.indent < 0
      · exact ⟨0, by rw [if_pos h, if_neg (by simp)]; rfl, (fun h => by cases h), (fun _ => by omega), (fun _ h' => by omega)⟩
      · exact ⟨(s.indent + s.bestIndent).toNat, by rw [if_neg h, if_pos (by simp)]; omega, (fun h => by cases h), (fun _ => by omega), (fun _ _ => by omega)⟩
  have hcol : s1.indention = true → s1.column ≤ j ∧ (s1.column = j → s1.whitespace = true) := by
    intro h
    rcases hpo with ⟨_, _, _, rfl⟩ | ⟨_, _, _, _, _, _, _, h'⟩
    · obtain ⟨h1, h2⟩ := hsite.col h
      have hf : il = false := by
        cases il with
        | false => rfl
        | true => exact absurd ((hil' rfl).2.2.symm.trans h) (by simp)
      have := hj2 hf
      refine ⟨by show s.column ≤ j; omega, fun h3 => h2 ?_⟩
      have h3 : s.column = j := h3
      by_contra h4
      have := hj3 hf h4
      omega
    · exact absurd (h'.symm.trans h) (by simp)
  refine hB (T := T) (lb := lb) (j := j) (x := x) (xs := xs) (by rw [hcore2]; exact hc.pop _ _) (by exact (congrArg Core.flowLevel hcore).trans hfl) (by rw [hil, hj]) (by exact hcol) rfl
    (by exact (congrArg Core.states hcore).trans hx)
    (by show Fits T s1.canonical w; rw [show s1.canonical = s.canonical from congrArg Core.canonical hcore]; exact fun e he => hf e (List.mem_cons_of_mem _ (List.mem_append_left _ he)))
    fun u s' k1 k2 => hR _ _ ?_
  obtain ⟨b, hu, brx, h, tk, g1, g2, g3, g4, g5⟩ := k2
  obtain ⟨h', tk', q1, q2, q3⟩ := coll_of_list (pi := s.indent) (mc := mc) (il := il) a t (shown s.canonical i t) i st g1 g2 g3 g4 shown_tag
    (fun h => ⟨(hil' h).1, (hil' h).2.1, hj1 h⟩) hj2
  have hcore3 : s'.core = s.core.pop x xs := by rw [k1, hcore2]; rfl
  rcases hpo with ⟨rfl, ha, ht, rfl⟩ | ⟨b1, tk1, rfl, hpt, _, hk, hw1, hi1⟩
  · have hm := q3 [] (by rw [ha, ht]; exact .none)
    have hu : u = (if s.indention = true then gap lb false (j - s.column) else gap lb true j) ++ b := hu
    cases hin : s.indention with
    | true =>
      have hj' := (hcol hin).1
      have hj' : s.column ≤ j := hj'
      obtain ⟨h1, h2⟩ := hsite.col hin
      rw [hin, if_pos rfl] at hu
      refine ⟨brx, h', tk', ?_, fun hws => ?_, q2, .inr hm, hcore3, g5⟩
      · rw [hu]
        exact q1.scans (fun h => by cases h) fun _ => ⟨rfl, by omega⟩
      · rw [hu]
        have h3 : s.column < j := by
          rcases Nat.lt_or_ge s.column j with h | h
          · exact h
          · have := (hcol hin).2 (by show s.column = j; omega)
            exact absurd (hws.symm.trans this) (by simp)
        obtain ⟨n, hn⟩ : ∃ n, j - s.column = n + 1 := ⟨j - s.column - 1, by omega⟩
        rw [hn]
        exact .inr ⟨32, _, rfl, by decide⟩
    | false =>
      rw [hin, if_neg (by simp)] at hu
      refine ⟨brx, h', tk', ?_, fun hws => ?_, q2, .inr hm, hcore3, g5⟩
      · rw [hu]
        exact q1.scans (fun _ => rfl) fun h => by cases h
      · rw [hu]
        cases lb
        all_goals exact .inr ⟨_, _, rfl, by decide⟩
  · have hi1 : Emitter.indention { s1 with state := blockS mp } = false := hi1
    rw [hi1, if_neg (by simp)] at hu
    obtain ⟨br0, k0, e, h0⟩ := pre_lead (lb := lb) (s := s) (al := s.indention) (pre := []) (.inl ⟨rfl, rfl⟩)
    refine ⟨brx, h', tk1 ++ tk', ?_, fun hws => ?_, q2, .inr (q3 _ hpt.props), hcore3, g5⟩
    · have := (hpt.scan false (s.indent + 1)).scans (pi := s.indent) (al := s.indention) (k0 := k0) (br0 := br0) (by omega) h0 q1
      rw [← e] at this
      rw [hu]
      simpa [lead] using this
    · have : lead { s with rootContext := root, sequenceContext := sq, mappingContext := mc, simpleKeyContext := false } = lead s := rfl
      rw [this, List.append_assoc]
      exact sep_lead hws

/-- What is shown for all nodes, and for what collections contain. -/
def TreeAll : Sym → List EvData → Prop
  | .node, w => NodeB w
  | .nodes, w => (w ≠ [] → FirstB false w) ∧ RestB false w
  | .pairs, w => (w ≠ [] → FirstB true w) ∧ RestB true w

/-- Every node. -/
theorem tree_all {y : Sym} {w : List EvData} (h : G y w) : TreeAll y w := by
  induction h with
  | «alias» => exact nodeB_alias _
  | scalar => exact nodeB_scalar ..
  | seq a t i s h ih => exact nodeB_coll (mp := false) a t i s (flow_all h).1 ih.1
  | map a t i s h ih => exact nodeB_coll (mp := true) a t i s (flow_all h).1 ih.1
  | nodesNil => exact ⟨fun h => absurd rfl h, restB_nil false⟩
  | pairsNil => exact ⟨fun h => absurd rfl h, restB_nil true⟩
  | nodesCons h1 h2 ih1 ih2 => exact ⟨fun _ => firstB_cons (itemB_node h1 ih1) (level_zero h1) ih2.2, restB_cons (itemB_node h1 ih1) (level_zero h1) ih2.2⟩
  | @pairsCons k v w h1 h2 h3 ih1 ih2 ih3 =>
    have hi := itemB_pair h1 h2 ih1 (nodeK_of h1) ih2
    have hl : level (k ++ v) = 0 := by rw [level_append, level_zero h1, level_zero h2]; rfl
    rw [← List.append_assoc]
    exact ⟨fun _ => firstB_cons hi hl ih3.2, restB_cons hi hl ih3.2⟩

end LibYaml
