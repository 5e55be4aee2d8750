import Verif.Proofs.TreeWrite
import Verif.Proofs.DocScan

/-!
# Documents: the text that is written, and the tokens it is read as
-/

namespace LibYaml

open Spec

/-! ### The beginning of a document -/

/-- The emitter is at the beginning of a line. -/
structure Lined (c : Core) (s : Emitter) : Prop where
  core : s.core = c
  col : s.column = 0
  ws : s.whitespace = true
  ind : s.indention = true

theorem Lined.indentCol {c : Core} {s : Emitter} (h : Lined c s) (hi : c.indent = -1) : s.indentCol = 0 := by
  have : s.indent = -1 := (congrArg Core.indent h.core).trans hi
  unfold Emitter.indentCol
  omega

/-- `write_indent` at the beginning of a line. -/
theorem tw_indentLined {c : Core} {s : Emitter} (h : Lined c s) (hi : c.indent = -1) {Q : Unit → Text → Emitter → Prop}
    (hQ : ∀ s', Lined c s' → s'.openEnded = s.openEnded → Q () [] s') : tw writeIndent Q s := by
  have h0 := h.indentCol hi
  rw [tw_writeIndent' (by unfold Emitter.needBreak; rw [h.ind, h.ws, h.col, h0]; rfl), h0, h.col]
  exact hQ _ ⟨h.core, rfl, rfl, rfl⟩ rfl

/-- `write_indent` at the end of a line. -/
theorem tw_indentLine {c : Core} {s : Emitter} {lb : Break} (hc : s.core = c) (hi : c.indent = -1) (hl : c.lineBreak = some lb) (hd : s.indention = false) {Q : Unit → Text → Emitter → Prop}
    (hQ : ∀ s', Lined c s' → s'.openEnded = s.openEnded → Q () (brkText (some lb)) s') : tw writeIndent Q s := by
  have h0 : s.indentCol = 0 := by
    have : s.indent = -1 := (congrArg Core.indent hc).trans hi
    unfold Emitter.indentCol
    omega
  have h1 : s.lineBreak = some lb := (congrArg Core.lineBreak hc).trans hl
  have e : brkText s.lineBreak ++ List.replicate s.indentCol 0x20 = brkText (some lb) := by rw [h0, h1]; simp
  rw [tw_writeIndent (by unfold Emitter.needBreak; rw [hd]; rfl), e]
  exact hQ _ ⟨hc, h0, rfl, rfl⟩ rfl

/-- An indicator on a line of its own. -/
theorem tw_indicatorLine {c : Core} {s : Emitter} {lb : Break} {x : Text} (h : Lined c s) (hi : c.indent = -1) (hl : c.lineBreak = some lb) {Q : Unit → Text → Emitter → Prop}
    (hQ : ∀ s', Lined c s' → s'.openEnded = s.openEnded → Q () (x ++ brkText (some lb)) s') : tw (do writeIndicator x true false false; writeIndent) Q s := by
  rw [tw_bind, tw_writeIndicator]
  refine tw_indentLine (c := c) (by exact h.core) hi hl (by simp) fun s' h1 h2 => ?_
  have := hQ s' h1 h2
  rw [h.ws]
  simpa using this

theorem tw_writeVersion {c : Core} {s : Emitter} {lb : Break} {v : Version} (hv : GoodVersion v) (h : Lined c s) (hi : c.indent = -1) (hl : c.lineBreak = some lb) {Q : Unit → Text → Emitter → Prop}
    (hQ : ∀ s', Lined c s' → s'.openEnded = s.openEnded → Q () ([37, 89, 65, 77, 76, 32, 49, 46, 48 + v.minor] ++ brkText (some lb)) s') : tw (writeVersion v) Q s := by
  unfold writeVersion
  rw [tw_bind, tw_writeIndicator, tw_bind, tw_writeIndicator]
  refine tw_indentLine (c := c) (by exact h.core) hi hl (by simp) fun s' h1 h2 => ?_
  have := hQ s' h1 h2
  rw [h.ws]
  rcases hv.2 with e | e <;> rw [e] at this ⊢ <;> simpa [lit] using this

/-- The lines of the `%TAG` directives. -/
def tagLines (lb : Break) (ts : List TagDir) : Text := ts.flatMap fun d => tagDirText d ++ brkText (some lb)

theorem tw_writeTags {c : Core} {lb : Break} (hi : c.indent = -1) (hl : c.lineBreak = some lb) : ∀ {ts : List TagDir} {s : Emitter} {Q : Unit → Text → Emitter → Prop}, Lined c s →
    (∀ s', Lined c s' → s'.openEnded = s.openEnded → Q () (tagLines lb ts) s') → tw (writeTags ts) Q s := by
  intro ts
  induction ts with
  | nil =>
    intro s Q h hQ
    exact hQ s h rfl
  | cons d ds ih =>
    intro s Q h hQ
    unfold writeTags
    rw [tw_bind, tw_writeIndicator, tw_bind, tw_writeTagHandle, tw_bind, tw_writeTagContent, tw_bind]
    refine tw_indentLine (c := c) (by exact h.core) hi hl rfl fun s' h1 h2 => ?_
    refine ih h1 fun s2 h3 h4 => ?_
    have := hQ s2 h3 (h4.trans h2)
    rw [h.ws]
    simpa [tagLines, tagDirText, lit, lead] using this

theorem tw_silent {α : Type} {m : EM α} {s : Emitter} {Q : α → Text → Emitter → Prop} (ht : (m s).text = []) (h : ewp m (fun a s' => Q a [] s') (fun _ _ => False) s) : tw m Q s := by
  unfold tw ewp at *
  cases hv : (m s).val with
  | error e => rw [hv] at h; exact h
  | ok a => rw [hv] at h; simp only [ht]; exact h

theorem tw_appendTags {ts : List TagDir} : ∀ {s : Emitter} {Q : Unit → Text → Emitter → Prop}, (∀ d ∈ ts, Handle d.handle ∧ d.pfx ≠ []) → ((s.tags ++ ts).map TagDir.handle).Nodup →
    Q () [] { s with tags := s.tags ++ ts } → tw (appendTags ts) Q s := by
  induction ts with
  | nil =>
    intro s Q _ _ hQ
    rw [List.append_nil] at hQ
    exact hQ
  | cons d ds ih =>
    intro s Q hg hn hQ
    unfold appendTags
    rw [tw_bind]
    refine tw_silent ?_ (ewp_analyzeTagDirective (fun _ _ => ?_) fun _ hp => (hp (hg d List.mem_cons_self)).elim)
    · unfold analyzeTagDirective
      repeat' split
      all_goals rfl
    unfold appendTagDirective
    rw [tw_bind, tw_bind, tw_getE, tw_ite, if_neg, tw_bind, tw_opE, tw_modE]
    · refine ih (fun x hx => hg x (List.mem_cons_of_mem _ hx)) (by simpa using hn) ?_
      simpa using hQ
    · intro h
      obtain ⟨x, hx, he⟩ := List.any_eq_true.mp h
      rw [List.map_append, List.nodup_append] at hn
      exact hn.2.2 x.handle (List.mem_map_of_mem hx) d.handle (by simp) (by simpa using he)

theorem tw_addDefaults {ds : List TagDir} : ∀ {s : Emitter} {Q : Unit → Text → Emitter → Prop}, (ds.map TagDir.handle).Nodup →
    Q () [] { s with tags := s.tags ++ ds.filter fun d => !(s.tags.any fun t => t.handle == d.handle) } → tw (addDefaults ds) Q s := by
  intro s Q hn hQ
  refine tw_silent ?_ (ewp_addDefaults hn hQ)
  have : ∀ (ds : List TagDir) (s : Emitter), tw (addDefaults ds) (fun _ t _ => t = []) s := by
    intro ds
    induction ds with
    | nil => exact fun s => rfl
    | cons d ds ih =>
      intro s
      unfold addDefaults appendTagDirective
      rw [tw_bind, tw_bind, tw_getE, tw_ite]
      split
      · rw [tw_ite, if_pos rfl, tw_pure]
        exact tw_mono (ih s) fun _ t _ h => by rw [h]; rfl
      · rw [tw_bind, tw_opE, tw_modE]
        exact tw_mono (ih _) fun _ t _ h => by rw [h]; rfl
  obtain ⟨_, _, h⟩ := tw_out (this ds s)
  exact h

/-- The lines of the directives. -/
def dirLines (lb : Break) (v : Option Version) (ts : List TagDir) : Text :=
  (match v with | none => [] | some v => [37, 89, 65, 77, 76, 32, 49, 46, 48 + v.minor] ++ brkText (some lb)) ++ tagLines lb ts

/-- The line in front of the directives. -/
def dotLine (lb : Break) (b : Bool) : Text := if b = true then [46, 46, 46] ++ brkText (some lb) else []

/-- The document needs no marker. -/
def bareDoc (canonical first : Bool) (v : Option Version) (ts : List TagDir) (i : Bool) : Bool := i && first && !canonical && v.isNone && ts.isEmpty

/-- The state behind the marker of the beginning of a document; `pre` is the text between the marker and the root. -/
inductive Opened (c : Core) (lb : Break) : Bool → Text → Bool → Text → Emitter → Prop
  | bare {s} : Lined c s → Opened c lb true [] true [] s
  | canon {s} : Lined c s → c.canonical = true → Opened c lb false [45, 45, 45] false (gap lb true 0) s
  | marker {s} : s.core = c → s.whitespace = false → s.indention = false → Opened c lb false [45, 45, 45] false [] s

theorem tw_documentStart {c : Core} {s : Emitter} {lb : Break} {v : Option Version} {ts : List TagDir} {i first : Bool} (h : Lined c s) (hi : c.indent = -1) (hl : c.lineBreak = some lb)
    (ht : c.tags = []) (hv : ∀ x, v = some x → GoodVersion x) (hg : GoodTags ts) {Q : Unit → Text → Emitter → Prop}
    (hQ : ∀ m al pre s', Opened { c with tags := knownTags ts, state := .documentContent } lb (bareDoc c.canonical first v ts i) m al pre s' →
      Q () (dotLine lb ((v.isSome || !ts.isEmpty) && s.openEnded != 0) ++ (dirLines lb v ts ++ (m ++ pre))) s') :
    tw (emitDocumentStartEvent v ts i first) Q s := by
  unfold emitDocumentStartEvent
  rw [tw_bind]
  have hver : ∀ {Q : Unit → Text → Emitter → Prop}, Q () [] s → tw (someE v analyzeVersion) Q s := by
    intro Q hx
    cases v with
    | none => exact hx
    | some x =>
      have := hv x rfl
      show tw (analyzeVersion x) Q s
      unfold analyzeVersion
      rw [tw_ite, if_neg (by rcases this with ⟨h1, h2⟩; omega), tw_pure]
      exact hx
  refine hver ?_
  have hst : s.tags = [] := (congrArg Core.tags h.core).trans ht
  rw [tw_bind]
  refine tw_appendTags hg.1 (by rw [hst]; exact hg.2) ?_
  rw [tw_bind]
  refine tw_addDefaults (by decide) ?_
  rw [tw_bind, tw_getE, tw_bind, tw_whenE]
  have hk : ({ s with tags := s.tags ++ ts } : Emitter).tags ++ List.filter (fun d => !({ s with tags := s.tags ++ ts } : Emitter).tags.any fun t => t.handle == d.handle) emitterDefaultTags = knownTags ts := by
    show (s.tags ++ ts) ++ _ = _
    rw [hst, List.nil_append]
    rfl
  rw [hk]
  have h1 : Lined { c with tags := knownTags ts } { s with tags := knownTags ts } := ⟨by rw [← h.core]; rfl, h.col, h.ws, h.ind⟩
  have hoe : ({ s with tags := knownTags ts } : Emitter).openEnded = s.openEnded := rfl
  generalize ({ s with tags := knownTags ts } : Emitter) = s1 at h1 hoe ⊢
  have hi1 : ({ c with tags := knownTags ts } : Core).indent = -1 := hi
  have hl1 : ({ c with tags := knownTags ts } : Core).lineBreak = some lb := hl
  generalize hb : ((v.isSome || !ts.isEmpty) && s.openEnded != 0) = b at *
  -- behind the line of dots
  have rest : ∀ s2, Lined { c with tags := knownTags ts } s2 →
      tw (do
        modE fun s => { s with openEnded := 0 }
        someE v writeVersion
        writeTags ts
        whenE (!(i && first && !(← getE).canonical && v.isNone && ts.isEmpty))
          (do
            writeIndent
            writeIndicator (lit ['-', '-', '-']) true false false
            whenE (← getE).canonical writeIndent)
        setStateE .documentContent
        modE fun s => { s with openEnded := 0 }) (fun _ t s' => Q () (dotLine lb b ++ t) s') s2 := by
    intro s2 h2
    rw [tw_bind, tw_modE, tw_bind]
    have h3 : Lined { c with tags := knownTags ts } { s2 with openEnded := 0 } := ⟨h2.core, h2.col, h2.ws, h2.ind⟩
    generalize ({ s2 with openEnded := 0 } : Emitter) = s3 at h3 ⊢
    have hver : tw (someE v writeVersion) (fun _ t s' => t ++ tagLines lb ts = dirLines lb v ts ∧ Lined { c with tags := knownTags ts } s') s3 := by
      cases v with
      | none => exact ⟨rfl, h3⟩
      | some x => exact tw_writeVersion (hv x rfl) h3 hi1 hl1 fun s' h4 _ => ⟨rfl, h4⟩
    refine tw_mono hver fun _ t s4 ⟨e4, h4⟩ => ?_
    rw [tw_bind]
    refine tw_writeTags hi1 hl1 h4 fun s5 h5 _ => ?_
    rw [tw_bind, tw_getE, tw_bind, tw_whenE]
    have hcan : s5.canonical = c.canonical := congrArg Core.canonical h5.core
    rw [hcan]
    have fin : ∀ m al pre s', Opened { c with tags := knownTags ts } lb (bareDoc c.canonical first v ts i) m al pre s' →
        tw (do setStateE .documentContent; modE fun s => { s with openEnded := 0 }) (fun _ u s'' => Q () (dotLine lb b ++ ([] ++ (t ++ (tagLines lb ts ++ ([] ++ ((m ++ pre) ++ u)))))) s'') s' := by
      intro m al pre s' ho
      rw [tw_bind]
      have e : [] ++ (t ++ (tagLines lb ts ++ ([] ++ ((m ++ pre) ++ ([] ++ []))))) = dirLines lb v ts ++ (m ++ pre) := by
        rw [← e4]; simp
      show Q () (dotLine lb b ++ ([] ++ (t ++ (tagLines lb ts ++ ([] ++ ((m ++ pre) ++ ([] ++ []))))))) _
      rw [e]
      refine hQ m al pre _ ?_
      generalize bareDoc c.canonical first v ts i = bd at ho ⊢
      cases ho with
      | bare k => exact .bare ⟨congrArg (fun x : Core => { x with state := .documentContent }) k.core, k.col, k.ws, k.ind⟩
      | canon k k' => exact .canon ⟨congrArg (fun x : Core => { x with state := .documentContent }) k.core, k.col, k.ws, k.ind⟩ k'
      | marker k1 k2 k3 => exact .marker (congrArg (fun x : Core => { x with state := .documentContent }) k1) k2 k3
    show if (!bareDoc c.canonical first v ts i) = true then _ else _
    cases hbd : bareDoc c.canonical first v ts i with
    | true =>
      rw [if_neg (by simp)]
      rw [hbd] at fin
      have := fin [] true [] s5 (.bare h5)
      simpa using this
    | false =>
      rw [if_pos (by rfl), tw_bind]
      refine tw_indentLined h5 hi1 fun s6 h6 _ => ?_
      rw [tw_bind, tw_writeIndicator, tw_bind, tw_getE, tw_whenE]
      have hcan : s6.canonical = c.canonical := congrArg Core.canonical h6.core
      rw [hbd] at fin
      cases hc : c.canonical with
      | true =>
        rw [if_pos (by exact hcan.trans hc)]
        refine tw_indentLine (c := { c with tags := knownTags ts }) (by exact h6.core) hi1 hl1 (by simp) fun s7 h7 _ => ?_
        have := fin _ _ _ s7 (.canon h7 hc)
        rw [h6.ws]
        simpa [gap, lit] using this
      | false =>
        rw [if_neg (by rw [show s6.canonical = false from hcan.trans hc]; simp)]
        have := fin [45, 45, 45] false [] _ (.marker (s := { s6 with column := s6.column + (if (true && !s6.whitespace) = true then 1 else 0) + (lit ['-', '-', '-']).length, whitespace := false, indention := s6.indention && false }) (by exact h6.core) rfl (by simp))
        rw [h6.ws] at this ⊢
        simpa [lit] using this
  have hcond : ((v.isSome || !ts.isEmpty) && s1.openEnded != 0) = b := by rw [hoe, hb]
  rw [hcond]
  cases b with
  | false =>
    rw [if_neg (by simp)]
    exact tw_mono (rest s1 h1) fun _ t s' h => by simpa [dotLine] using h
  | true =>
    rw [if_pos rfl]
    refine tw_indicatorLine h1 hi1 hl1 fun s2 h2 _ => ?_
    refine tw_mono (rest s2 h2) fun _ t s' h => ?_
    simpa [dotLine, dots, lit] using h

/-! ### Documents -/

/-- The emitter is between documents. -/
structure Apart (lb : Break) (c : Core) : Prop where
  line : c.lineBreak = some lb
  best : 2 ≤ c.bestIndent ∧ c.bestIndent ≤ 9
  tags : c.tags = []
  indent : c.indent = -1
  level : c.flowLevel = 0

/-- An event without anything to analyse. -/
def plainEvent : EvData → Bool
  | .streamStart _ | .streamEnd | .documentStart .. | .documentEnd _ => true
  | _ => false

theorem Writes.plain {e : EvData} {es : List EvData} {R : Text → Emitter → Prop} {s : Emitter} (he : plainEvent e = true)
    (h : ∀ s1, Near s s1 → WritesFrom (emitterStep e) es R s1) : Writes (e :: es) R s := by
  refine Writes.step (fun ho => by cases e <;> simp [plainEvent, opensNode] at he ho) fun q _ => ?_
  unfold analyzeEvent
  rw [tw_bind, tw_modE, tw_bind, tw_getE]
  generalize hs1 : ({ ({ s with events := q } : Emitter) with anchor := none, tagHandle := none, tagSuffix := none, scalar := { ({ s with events := q } : Emitter).scalar with value := [] } } : Emitter) = s1
  have hn : Near s s1 := by subst hs1; exact ⟨rfl, rfl, rfl, rfl, rfl, rfl⟩
  have := (h s1 hn).mono (R' := fun u s'' => R ([] ++ u) s'') fun t s' h' => by simpa using h'
  cases e <;> simp [plainEvent] at he <;> exact this

/-- What a document leaves behind. -/
def DocOut (lb : Break) (c : Core) (first : Bool) (s : Emitter) (v : Option Version) (ts : List TagDir) (i : Bool) (n : List EvData) (j : Bool) (t : Text) (s' : Emitter) : Prop :=
  ∃ al h tk x brx m, t = dotLine lb ((v.isSome || !ts.isEmpty) && s.openEnded != 0) ++ (dirLines lb v ts ++ (m ++ (x ++ (gap lb brx 0 ++ dotLine lb (!j))))) ∧
    BlockScan (-1) lb al brx h x tk ∧ Deep h n ∧ MeansOpt ts false tk n ∧
    ((bareDoc c.canonical first v ts i = true ∧ m = [] ∧ al = true) ∨ (bareDoc c.canonical first v ts i = false ∧ m = [45, 45, 45] ∧ al = false ∧ Sep brx x)) ∧
    Lined { c with state := .documentStart } s' ∧ (j = false → s'.openEnded = 0) ∧ (j = true → s'.openEnded ≠ 0)

theorem tw_flush {Q : Unit → Text → Emitter → Prop} {s : Emitter} : tw (opE (.out .flush)) Q s ↔ Q () [] s := Iff.rfl

theorem tw_documentEnd {lb : Break} {c : Core} {brx j : Bool} {s : Emitter} (hl : c.lineBreak = some lb) (hi : c.indent = -1) (hc : s.core = c) (ho : Onward brx s)
    {Q : Unit → Text → Emitter → Prop}
    (hQ : ∀ s', Lined { c with state := .documentStart, tags := [] } s' → (j = false → s'.openEnded = 0) → (j = true → s'.openEnded ≠ 0) → Q () (gap lb brx 0 ++ dotLine lb (!j)) s') :
    tw (emitDocumentEnd (.documentEnd j)) Q s := by
  have hln : ∀ {s' : Emitter}, Lined c s' → Lined { c with state := .documentStart, tags := [] } { s' with state := .documentStart, tags := [] } := fun k =>
    ⟨congrArg (fun x : Core => { x with state := .documentStart, tags := [] }) k.core, k.col, k.ws, k.ind⟩
  have rest : ∀ s1, Lined c s1 → tw (do
      (if !j then do
          writeIndicator dots true false false
          modE fun s => { s with openEnded := 0 }
          writeIndent
        else modE fun s => { s with openEnded := if s.openEnded == 0 then 1 else s.openEnded })
      opE (.out .flush)
      modE fun s => { s with state := .documentStart, tags := [] }) (fun _ t s' => Q () (gap lb brx 0 ++ t) s') s1 := by
    intro s1 h1
    rw [tw_bind]
    cases j with
    | false =>
      rw [tw_ite, if_pos (by rfl), tw_bind, tw_writeIndicator, tw_bind, tw_modE]
      refine tw_indentLine (c := c) (by exact h1.core) hi hl (by simp) fun s2 h2 e2 => ?_
      rw [tw_bind, tw_flush, tw_modE]
      have := hQ _ (hln h2) (fun _ => e2) (fun h => by cases h)
      rw [h1.ws]
      simpa [dotLine, dots, lit] using this
    | true =>
      rw [tw_ite, if_neg (by simp), tw_modE, tw_bind, tw_flush, tw_modE]
      have := hQ _ (hln (s' := { s1 with openEnded := if s1.openEnded == 0 then 1 else s1.openEnded }) ⟨h1.core, h1.col, h1.ws, h1.ind⟩) (fun h => by cases h) (fun _ => by
        show (if s1.openEnded == 0 then 1 else s1.openEnded) ≠ 0
        split
        · simp
        · rename_i h; simpa using h)
      simpa [dotLine] using this
  unfold emitDocumentEnd
  rw [tw_bind]
  cases brx with
  | true => exact tw_indentLine (c := c) hc hi hl (ho.goes rfl) fun s1 h1 _ => by simpa [gap] using rest s1 h1
  | false =>
    obtain ⟨h1, h2, h3⟩ := ho.done rfl
    exact tw_indentLined (c := c) ⟨hc, h3, h2, h1⟩ hi fun s1 h1 _ => by simpa [gap] using rest s1 h1

theorem Opened.core {c : Core} {lb : Break} {bare al : Bool} {m pre : Text} {s : Emitter} (h : Opened c lb bare m al pre s) : s.core = c := by
  cases h with
  | bare h => exact h.core
  | canon h => exact h.core
  | marker h => exact h

theorem writes_doc {lb : Break} {c : Core} {first : Bool} {v : Option Version} {ts : List TagDir} {i j : Bool} {n : List EvData} {s : Emitter} {R : Text → Emitter → Prop}
    (hG : G .node n) (hv : ∀ x, v = some x → GoodVersion x) (hg : GoodTags ts) (hf : Fits ts s.canonical n) (hb : Apart lb c) (hs : Lined c s)
    (hst : c.state = if first = true then .firstDocumentStart else .documentStart) (hR : ∀ t s', DocOut lb c first s v ts i n j t s' → R t s') :
    Writes (.documentStart v ts i :: (n ++ [.documentEnd j])) R s := by
  refine Writes.plain rfl fun s1 h1 => ?_
  have hs1 : Lined c s1 := ⟨h1.core.trans hs.core, h1.col.trans hs.col, h1.ws.trans hs.ws, h1.ind.trans hs.ind⟩
  have hcan : s.canonical = c.canonical := congrArg Core.canonical hs.core
  unfold WritesFrom emitterStep
  rw [tw_bind, tw_getE, show s1.state = _ from (congrArg Core.state hs1.core).trans hst]
  have hstart : tw (emitDocumentStartEvent v ts i first) (fun _ t s' => Writes (n ++ [.documentEnd j]) (fun u s'' => R (t ++ u) s'') s') s1 := by
    refine tw_documentStart hs1 hb.indent hb.line hb.tags hv hg fun m al pre s2 h2 => ?_
    rw [h1.ended]
    have hc2 : Ctx ts lb s2.core := by
      rw [h2.core]
      exact ⟨hb.line, hb.best, rfl, hg.1, hg.2, by show -1 ≤ c.indent; rw [hb.indent]; omega, by show 0 ≤ c.flowLevel; rw [hb.level]; omega, fun h => absurd hb.level h⟩
    have hcan2 : s2.canonical = c.canonical := congrArg Core.canonical h2.core
    obtain ⟨e, es, rfl, hse, hN⟩ := tree_all hG
    rw [List.cons_append]
    refine Writes.event (T := ts) (lb := lb) (fun _ => by simp) hc2 ?_ ?_ fun s3 h3 hn3 hp3 => ?_
    · rw [hcan2, ← hcan]; exact (hf e List.mem_cons_self).1
    · exact (hf e List.mem_cons_self).2
    have hcont : ∀ {R}, WritesFrom (emitDocumentContent e) (es ++ [.documentEnd j]) R s3 → WritesFrom (emitterStep e) (es ++ [.documentEnd j]) R s3 := by
      intro R h
      unfold WritesFrom at *
      unfold emitterStep
      rw [tw_bind, tw_getE, show s3.state = .documentContent from (h3.state.trans (congrArg Core.state h2.core))]
      exact tw_mono h fun _ _ _ h' => by simpa using h'
    refine hcont ?_
    unfold emitDocumentContent
    refine WritesFrom.bind ?_
    rw [tw_pushState]
    refine WritesFrom.append ?_
    have hindent : s3.indent = -1 := h3.indent.trans ((congrArg Core.indent h2.core).trans hb.indent)
    have hsite : Site s3 false ∧ Pre lb s3 al pre := by
      generalize bareDoc c.canonical first v ts i = bd at h2
      cases h2 with
      | bare k =>
        exact ⟨⟨(fun h => by cases h), fun _ => ⟨by rw [h3.col, k.col, hindent]; rfl, fun _ => h3.ws.trans k.ws⟩⟩, .inl ⟨rfl, (h3.ind.trans k.ind).symm⟩⟩
      | canon k k' =>
        exact ⟨⟨(fun h => by cases h), fun _ => ⟨by rw [h3.col, k.col, hindent]; rfl, fun _ => h3.ws.trans k.ws⟩⟩,
          .inr ⟨rfl, hindent, h3.ws.trans k.ws, (h3.canonical.trans hcan2).trans k'⟩⟩
      | marker k1 k2 k3 =>
        exact ⟨⟨(fun h => by cases h), fun h => absurd (h.symm.trans (h3.ind.trans k3)) (by simp)⟩, .inl ⟨rfl, (h3.ind.trans k3).symm⟩⟩
    refine hN (T := ts) (lb := lb) (x := .documentEnd) (xs := s3.states) (al := al) (pre := pre) (by rw [← h3.core] at hc2; exact ⟨hc2.line, hc2.best, hc2.tags, hc2.good, hc2.once, hc2.low, hc2.level, hc2.inFlow⟩) (by exact h3.flowLevel.trans ((congrArg Core.flowLevel h2.core).trans hb.level))
      (by exact hn3.congr rfl) (by exact hp3.left (opens_more hG)) rfl (by show Fits ts s3.canonical _; rw [h3.canonical, hcan2, ← hcan]; exact hf) (by exact ⟨hsite.1.map, hsite.1.col⟩) (by exact hsite.2) fun t s4 ho => ?_
    obtain ⟨brx, d, tk, k1, k2, k3, k4, k5, k6⟩ := ho
    refine Writes.plain rfl fun s5 h5 => Writes.done ?_
    have hcore5 : s5.core = { c with tags := knownTags ts, state := .documentEnd } := by
      rw [h5.core, k5]
      have := h3.core.trans h2.core
      show ({ s3.core with state := .documentEnd, states := s3.states } : Core) = _
      rw [this, show s3.states = c.states from congrArg Core.states this]
    have ho5 : Onward brx s5 := ⟨fun h => h5.ind.trans (k6.goes h), fun h => by
      obtain ⟨a1, a2, a3⟩ := k6.done h
      exact ⟨h5.ind.trans a1, h5.ws.trans a2, h5.col.trans a3⟩⟩
    unfold emitterStep
    rw [tw_bind, tw_getE, show s5.state = .documentEnd from congrArg Core.state hcore5]
    refine tw_documentEnd (c := { c with tags := knownTags ts, state := .documentEnd }) hb.line hb.indent hcore5 ho5 fun s6 g1 g2 g3 => ?_
    have e : ∀ y : Text, dotLine lb ((v.isSome || !ts.isEmpty) && s.openEnded != 0) ++ (dirLines lb v ts ++ (m ++ pre)) ++ ([] ++ (t ++ ([] ++ y))) =
        dotLine lb ((v.isSome || !ts.isEmpty) && s.openEnded != 0) ++ (dirLines lb v ts ++ (m ++ ((pre ++ t) ++ y))) := by intro y; simp
    rw [e]
    refine hR _ _ ⟨al, d, tk, pre ++ t, brx, m, rfl, ?_, k3, k4, ?_, ?_, g2, g3⟩
    · have := k1
      rw [show ({ s3 with states := .documentEnd :: s3.states } : Emitter).indent = -1 from hindent] at this
      exact this
    · generalize bareDoc c.canonical first v ts i = bd at h2
      cases h2 with
      | bare k => exact .inl ⟨rfl, rfl, rfl⟩
      | canon k k' => exact .inr ⟨rfl, rfl, rfl, .inr (by cases lb <;> exact ⟨_, _, rfl, by decide⟩)⟩
      | marker a1 a2 a3 => exact .inr ⟨rfl, rfl, rfl, k2 (h3.ws.trans a2)⟩
    · have := g1
      rw [← hb.tags] at this
      exact this
  cases first <;> exact tw_mono hstart fun _ t s' h => h.mono fun u s'' h' => by simpa using h'

/-! ### Reading documents -/

/-- What may follow a document. -/
def OkNext (j : Bool) (r : Text) : Prop := if j = true then DocLine r ∨ ∃ x, r = 0 :: x else TokStart r

/-- The tokens of the directives. -/
def dirTokens (v : Option Version) (ts : List TagDir) : List TokData := v.toList.map .versionDirective ++ ts.map .tagDirective

theorem directives_ok {v : Option Version} {ts : List TagDir} (hv : ∀ x, v = some x → GoodVersion x) (hg : GoodTags ts) : Directives (dirTokens v ts) v ts := by
  have h1 : versionsOf (ts.map TokData.tagDirective) = [] := by
    unfold versionsOf
    rw [List.filterMap_eq_nil_iff]
    intro x hx
    obtain ⟨d, _, rfl⟩ := List.mem_map.mp hx
    rfl
  have h2 : tagsOf (ts.map TokData.tagDirective) = ts := by
    unfold tagsOf
    rw [List.filterMap_map]
    exact List.filterMap_some
  refine ⟨fun d hd => ?_, ?_, fun x hx => ?_, ?_, hg.2⟩
  · rcases List.mem_append.mp hd with h | h
    · obtain ⟨x, _, rfl⟩ := List.mem_map.mp h
      exact .inl ⟨_, rfl⟩
    · obtain ⟨x, _, rfl⟩ := List.mem_map.mp h
      exact .inr ⟨_, rfl⟩
  · have : versionsOf (dirTokens v ts) = v.toList ++ versionsOf (ts.map TokData.tagDirective) := by
      cases v <;> rfl
    rw [this, h1, List.append_nil]
  · obtain ⟨a, b⟩ := x
    obtain ⟨k1, k2⟩ := hv _ hx
    simp only at k1 k2
    subst k1
    rcases k2 with rfl | rfl
    · exact .inl rfl
    · exact .inr rfl
  · have : tagsOf (dirTokens v ts) = tagsOf (ts.map TokData.tagDirective) := by cases v <;> rfl
    rw [this, h2]

/-- Prefixes that can be written and read back. -/
def PrefixFit (ts : List TagDir) : Prop := ∀ d ∈ ts, ∀ c ∈ d.pfx, Storable c ∧ c ≠ 0

variable {C : Cx}

theorem tokStart_tags {lb : Break} {ts : List TagDir} {r : Text} (h : TokStart r) : TokStart (tagLines lb ts ++ r) := by
  cases ts with
  | nil => exact h
  | cons d ds => exact ⟨37, _, rfl, by decide, by decide, by decide, by decide⟩

theorem tokStart_dirs {lb : Break} {v : Option Version} {ts : List TagDir} {r : Text} (h : TokStart r) : TokStart (dirLines lb v ts ++ r) := by
  cases v with
  | none => exact tokStart_tags h
  | some v => exact ⟨37, _, rfl, by decide, by decide, by decide, by decide⟩

theorem tokStart_dots {lb : Break} {b : Bool} {r : Text} (h : TokStart r) : TokStart (dotLine lb b ++ r) := by
  cases b with
  | false => exact h
  | true => exact ⟨46, _, rfl, by decide, by decide, by decide, by decide⟩

theorem scan_tags {lb : Break} (hB : 1 ≤ C.B) : ∀ {ts : List TagDir} {ds : List TokData} {al : Bool} {u r : Text}, (∀ d ∈ ts, TagDirOk d) → TokStart r → Home C ds al u (tagLines lb ts ++ r) →
    ∃ al', Home C (ds ++ ts.map .tagDirective) al' (u ++ tagLines lb ts) r := by
  intro ts
  induction ts with
  | nil =>
    intro ds al u r _ _ h
    exact ⟨al, by simpa [tagLines] using h⟩
  | cons d ts ih =>
    intro ds al u r hd hr h
    have h' : Home C ds al u (tagDirText d ++ (brkText (some lb) ++ (tagLines lb ts ++ r))) := by simpa [tagLines] using h
    obtain ⟨al', h2⟩ := ih (fun x hx => hd x (List.mem_cons_of_mem _ hx)) hr (Home.tag (hd d List.mem_cons_self) h' (tokStart_tags hr) hB)
    exact ⟨al', by simpa [tagLines] using h2⟩

theorem scan_dirs {lb : Break} (hB : 1 ≤ C.B) {v : Option Version} {ts : List TagDir} {ds : List TokData} {al : Bool} {u r : Text} (hv : ∀ x, v = some x → GoodVersion x)
    (hd : ∀ d ∈ ts, TagDirOk d) (hr : TokStart r) (h : Home C ds al u (dirLines lb v ts ++ r)) : ∃ al', Home C (ds ++ dirTokens v ts) al' (u ++ dirLines lb v ts) r := by
  cases v with
  | none => exact scan_tags hB hd hr h
  | some v =>
    have h' : Home C ds al u ([37, 89, 65, 77, 76, 32, 49, 46, 48 + v.minor] ++ (brkText (some lb) ++ (tagLines lb ts ++ r))) := by simpa [dirLines] using h
    obtain ⟨al', h2⟩ := scan_tags hB hd hr (Home.version (hv v rfl) h' (tokStart_tags hr) hB)
    exact ⟨al', by simpa [dirLines, dirTokens] using h2⟩

/-- The markers of the end of a document. -/
def endTokens (b : Bool) : List TokData := List.replicate (if b = true then 1 else 0) .documentEnd

theorem scan_dots {lb : Break} (hB : 1 ≤ C.B) {b : Bool} {ds : List TokData} {al : Bool} {u r : Text} (hr : TokStart r) (h : Home C ds al u (dotLine lb b ++ r)) :
    ∃ al', Home C (ds ++ endTokens b) al' (u ++ dotLine lb b) r := by
  cases b with
  | false => exact ⟨al, by simpa [dotLine, endTokens] using h⟩
  | true =>
    have := Home.documentEnd (lb := lb) (t := r) (by simpa [dotLine] using h) hr hB
    exact ⟨true, by simpa [dotLine, endTokens] using this⟩

theorem OkNext.start {j : Bool} {r : Text} (h : OkNext j r) : TokStart r := by
  unfold OkNext at h
  split at h
  · rcases h with h | ⟨x, rfl⟩
    · exact tokStart_doc h
    · exact ⟨0, _, rfl, by decide, by decide, by decide, by decide⟩
  · exact h

/-- The root and the end of the document. -/
theorem scan_root {lb : Break} (hB : 1 ≤ C.B) {j al al' brx : Bool} {n : Nat} {x u r : Text} {ds tk : List TokData} (hs : BlockScan (-1) lb al brx n x tk) (hn : n ≤ C.B) (hr : OkNext j r)
    (ha : al = true → al' = true ∧ lastColumn u = 0) (h : Raw C (View.home ds al') u (x ++ (gap lb brx 0 ++ (dotLine lb (!j) ++ r)))) :
    ∃ al'', Home C (ds ++ tk ++ endTokens (!j)) al'' (u ++ (x ++ (gap lb brx 0 ++ dotLine lb (!j)))) r := by
  have hd : DocLine (dotLine lb (!j) ++ r) ∨ ∃ y, dotLine lb (!j) ++ r = 0 :: y := by
    cases j with
    | true => exact hr
    | false => exact .inl (by cases lb <;> exact ⟨_, _, by decide, .inr rfl⟩)
  have h1 := Home.root hs h ha hd hn
  obtain ⟨al'', h2⟩ := scan_dots hB hr.start h1
  exact ⟨al'', by simpa only [List.append_assoc] using h2⟩

/-- A document behind others, or with a marker. -/
structure DocScan (lb : Break) (oe j : Bool) (h : Nat) (t : Text) (b : Bool) (toks : List TokData) : Prop where
  start : ∀ r, TokStart (t ++ r)
  line : oe = true → ∀ r, DocLine (t ++ r)
  mark : oe = false → b = false
  scan : ∀ {C : Cx} {ds : List TokData} {al : Bool} {u r : Text}, 1 ≤ C.B → h ≤ C.B → OkNext j r → Home C ds al u (t ++ r) → ∃ al', Home C (ds ++ endTokens b ++ toks) al' (u ++ t) r

theorem DocOut.marked {lb : Break} {c : Core} {first : Bool} {s s' : Emitter} {v : Option Version} {ts : List TagDir} {i j : Bool} {n : List EvData} {t : Text}
    (ho : DocOut lb c first s v ts i n j t s') (hb : bareDoc c.canonical first v ts i = false) (hv : ∀ x, v = some x → GoodVersion x) (hg : GoodTags ts) (hp : PrefixFit ts) :
    ∃ h b tk, DocScan lb (s.openEnded != 0) j h t b (dirTokens v ts ++ .documentStart :: (tk ++ endTokens (!j))) ∧ Deep h n ∧ MeansOpt ts false tk n := by
  obtain ⟨al, h, tk, x, brx, m, rfl, h1, h2, h3, h4, h5, h6, h7⟩ := ho
  rcases h4 with ⟨e, _⟩ | ⟨_, rfl, rfl, hsep⟩
  · rw [hb] at e; cases e
  have hmark : ∀ r, TokStart ([45, 45, 45] ++ (x ++ (gap lb brx 0 ++ dotLine lb (!j))) ++ r) := fun r => ⟨45, _, rfl, by decide, by decide, by decide, by decide⟩
  have hhead : ∀ r, ∃ d y, x ++ (gap lb brx 0 ++ (dotLine lb (!j) ++ r)) = d :: y ∧ isBlankz d = true := fun r => hsep.head _
  refine ⟨h, ((v.isSome || !ts.isEmpty) && s.openEnded != 0), tk, ⟨fun r => ?_, fun ho r => ?_, fun ho => ?_, ?_⟩, h2, h3⟩
  · rw [List.append_assoc, List.append_assoc]
    exact tokStart_dots (tokStart_dirs (hmark r))
  · rw [ho, Bool.and_true]
    cases hd : (v.isSome || !ts.isEmpty) with
    | true => cases lb <;> exact ⟨_, _, by decide, .inr rfl⟩
    | false =>
      obtain ⟨rfl, rfl⟩ : v = none ∧ ts = [] := by
        cases v with
        | none => cases ts <;> simp_all
        | some v => simp at hd
      obtain ⟨d, y, e, hdz⟩ := hhead r
      refine ⟨d, y, hdz, .inl ?_⟩
      show 45 :: 45 :: 45 :: ((x ++ (gap lb brx 0 ++ dotLine lb (!j))) ++ r) = _
      rw [List.append_assoc, List.append_assoc, e]
  · rw [ho, Bool.and_false]
  · intro C ds al u r hB hn hr hh
    rw [List.append_assoc, List.append_assoc] at hh
    obtain ⟨a1, g1⟩ := scan_dots hB (tokStart_dirs (hmark r)) hh
    obtain ⟨a2, g2⟩ := scan_dirs hB hv (fun d hd => ⟨handleOk_iff.mp (hg.1 d hd).1, hp d hd, (hg.1 d hd).2⟩) (hmark r) g1
    obtain ⟨d, y, e, hdz⟩ := hhead r
    have e' : [45, 45, 45] ++ (x ++ (gap lb brx 0 ++ dotLine lb (!j))) ++ r = 45 :: 45 :: 45 :: d :: y := by
      rw [← e]; simp
    rw [e'] at g2
    have g3 := g2.documentStart hdz hB
    rw [← e] at g3
    obtain ⟨a4, g4⟩ := scan_root hB h1 hn hr (fun h => by cases h) g3
    exact ⟨a4, by simpa only [List.append_assoc, List.cons_append, List.nil_append] using g4⟩

/-! ### The documents of a stream -/

/-- Documents that can be written and read back. -/
inductive FitDocs (canonical : Bool) : List EvData → Prop
  | nil : FitDocs canonical []
  | cons {v ts i n j r} : G .node n → (∀ x, v = some x → GoodVersion x) → GoodTags ts → PrefixFit ts → Fits ts canonical n → FitDocs canonical r →
      FitDocs canonical (.documentStart v ts i :: (n ++ .documentEnd j :: r))

/-- The documents up to the end of the stream. -/
structure DocsScan (oe : Bool) (h : Nat) (t : Text) (b : Bool) (toks : List TokData) : Prop where
  start : TokStart (t ++ [0])
  line : oe = true → DocLine (t ++ [0]) ∨ ∃ x, t ++ [0] = 0 :: x
  mark : oe = false → b = false
  scan : ∀ {C : Cx} {ds : List TokData} {al : Bool} {u : Text}, 1 ≤ C.B → h ≤ C.B → Home C ds al u (t ++ [0]) → ∃ al', Home C (ds ++ endTokens b ++ toks) al' (u ++ t) [0]

/-- What the documents leave behind. -/
def DocsOut (oe : Bool) (w : List EvData) (t : Text) : Prop :=
  ∃ h b toks evs, DocsScan oe h t b toks ∧ Deep h w ∧ Docs .implemented (toks ++ [.streamEnd]) evs ∧ List.Forall₂ Alike (w ++ [.streamEnd]) evs

theorem tw_streamEnd {c : Core} {s : Emitter} {lb : Break} (h : Lined c s) (hi : c.indent = -1) (hl : c.lineBreak = some lb) {Q : Unit → Text → Emitter → Prop}
    (hQ : ∀ s', Q () (dotLine lb (s.openEnded == 2)) s') : tw emitStreamEndEvent Q s := by
  unfold emitStreamEndEvent
  rw [tw_bind, tw_getE, tw_bind, tw_whenE]
  cases ho : (s.openEnded == 2) with
  | false =>
    rw [if_neg (by simp), tw_bind, tw_flush, tw_setState]
    rw [ho] at hQ
    simpa [dotLine] using hQ _
  | true =>
    rw [if_pos rfl, tw_bind, tw_writeIndicator, tw_bind, tw_modE]
    refine tw_indentLine (c := c) (by exact h.core) hi hl (by simp) fun s2 h2 e2 => ?_
    rw [tw_bind, tw_flush, tw_setState]
    rw [ho] at hQ
    have := hQ { s2 with state := .ended }
    rw [h.ws]
    simpa [dotLine, dots, lit] using this

theorem docs_nil {lb : Break} {o : Nat} : DocsOut (o != 0) [] (dotLine lb (o == 2)) := by
  refine ⟨0, (o == 2), [], _, ⟨?_, fun ho => ?_, fun ho => ?_, ?_⟩, .zero _, .done, forall2_one .streamEnd⟩
  · exact tokStart_dots ⟨0, _, rfl, by decide, by decide, by decide, by decide⟩
  · cases h : (o == 2) with
    | false => exact .inr ⟨_, rfl⟩
    | true => exact .inl (by cases lb <;> exact ⟨_, _, by decide, .inr rfl⟩)
  · have : o = 0 := by simpa using ho
    rw [this]; rfl
  · intro C ds al u hB _ h
    obtain ⟨al', h1⟩ := scan_dots hB ⟨0, _, rfl, by decide, by decide, by decide, by decide⟩ h
    exact ⟨al', by simpa using h1⟩

theorem replicate_ends (a b : Bool) : endTokens a ++ endTokens b = List.replicate ((if a = true then 1 else 0) + (if b = true then 1 else 0)) .documentEnd := by
  unfold endTokens
  rw [List.replicate_append_replicate]

/-- A document and those behind it. -/
theorem docs_cons {lb : Break} {oe j b : Bool} {h : Nat} {v : Option Version} {ts : List TagDir} {i : Bool} {n w : List EvData} {t u : Text} {tk : List TokData} {oe' : Bool}
    (hs : DocScan lb oe j h t b (dirTokens v ts ++ .documentStart :: (tk ++ endTokens (!j)))) (hd : Deep h n) (hm : MeansOpt ts false tk n) (hG : G .node n) (hj : oe' = j)
    (hv : ∀ x, v = some x → GoodVersion x) (hg : GoodTags ts) (hr : DocsOut oe' w u) : DocsOut oe (.documentStart v ts i :: (n ++ .documentEnd j :: w)) (t ++ u) := by
  obtain ⟨h', b', toks', evs', k1, k2, k3, k4⟩ := hr
  have hnext : OkNext j (u ++ [0]) := by
    unfold OkNext
    split
    · exact k1.line (by rw [hj]; assumption)
    · exact k1.start
  obtain ⟨evs, m1, m2⟩ := hm.opt
  refine ⟨max h h', b, dirTokens v ts ++ .documentStart :: (tk ++ endTokens (!j)) ++ endTokens b' ++ toks',
    .documentStart v ts false :: evs ++ .documentEnd (((if (!j) = true then 1 else 0) + (if b' = true then 1 else 0)) == 0) :: evs', ⟨?_, fun ho => ?_, hs.mark, ?_⟩, ?_, ?_, ?_⟩
  · rw [List.append_assoc]; exact hs.start _
  · rw [List.append_assoc]; exact .inl (hs.line ho _)
  · intro C ds al x hB hn hh
    rw [List.append_assoc] at hh
    obtain ⟨a1, g1⟩ := hs.scan hB (Nat.le_trans (Nat.le_max_left _ _) hn) hnext hh
    obtain ⟨a2, g2⟩ := k1.scan hB (Nat.le_trans (Nat.le_max_right _ _) hn) g1
    exact ⟨a2, by simpa only [List.append_assoc, List.cons_append] using g2⟩
  · exact Spec.Deep.right (a := [.documentStart v ts i]) (Spec.Deep.max (hd.left _) (Spec.Deep.right (Spec.Deep.right (a := [.documentEnd j]) k2 rfl) (level_zero hG))) rfl
  · have := Docs.doc (v := .implemented) ((if (!j) = true then 1 else 0) + (if b' = true then 1 else 0)) (directives_ok hv hg) m1 k3
    rw [← replicate_ends] at this
    simpa only [List.append_assoc, List.cons_append] using this
  · refine .cons (.documentStart _ _ _ _) ?_
    show List.Forall₂ Alike ((n ++ _) ++ [_]) (evs ++ _)
    rw [List.append_assoc]
    exact forall2_append m2 (.cons (.documentEnd _ _) k4)

theorem writes_docs {lb : Break} {w : List EvData} {canonical : Bool} (hw : FitDocs canonical w) : ∀ {c : Core} {s : Emitter} {first : Bool} {R : Text → Emitter → Prop}, Apart lb c → Lined c s →
    s.canonical = canonical → c.state = (if first = true then .firstDocumentStart else .documentStart) →
    (first = true → ∀ v ts i r, w = .documentStart v ts i :: r → bareDoc canonical true v ts i = false) →
    (∀ t s', DocsOut (s.openEnded != 0) w t → R t s') → Writes (w ++ [.streamEnd]) R s := by
  induction hw with
  | nil =>
    intro c s first R hb hs hc hst _ hR
    refine Writes.plain rfl fun s1 h1 => Writes.done ?_
    have hs1 : Lined c s1 := ⟨h1.core.trans hs.core, h1.col.trans hs.col, h1.ws.trans hs.ws, h1.ind.trans hs.ind⟩
    unfold emitterStep
    rw [tw_bind, tw_getE, show s1.state = _ from (congrArg Core.state hs1.core).trans hst]
    have hend : tw emitStreamEndEvent (fun _ t s' => R t s') s1 := by
      refine tw_streamEnd hs1 hb.indent hb.line fun s' => hR _ _ ?_
      rw [h1.ended]
      exact docs_nil
    cases first <;> exact tw_mono hend fun _ t s' h => by simpa using h
  | @cons v ts i n j r hG hv hg hp hf _ ih =>
    intro c s first R hb hs hc hst hnb hR
    have e : (EvData.documentStart v ts i :: (n ++ .documentEnd j :: r)) ++ [.streamEnd] = (.documentStart v ts i :: (n ++ [.documentEnd j])) ++ (r ++ [.streamEnd]) := by simp
    rw [e]
    refine Writes.append (writes_doc hG hv hg (by rw [hc]; exact hf) hb hs hst fun t s' ho => ?_)
    have hbare : bareDoc c.canonical first v ts i = false := by
      rw [show c.canonical = canonical from (congrArg Core.canonical hs.core).symm.trans hc]
      cases first with
      | true => exact hnb rfl v ts i _ rfl
      | false => simp [bareDoc]
    obtain ⟨h, b, tk, k1, k2, k3⟩ := ho.marked hbare hv hg hp
    obtain ⟨_, _, _, _, _, _, _, _, _, _, _, k4, k5, k6⟩ := ho
    refine ih (c := { c with state := .documentStart }) (first := false) ⟨hb.line, hb.best, hb.tags, hb.indent, hb.level⟩ k4 ((congrArg Core.canonical k4.core).trans ((congrArg Core.canonical hs.core).symm.trans hc)) rfl
      (fun h => by cases h) fun u s'' hu => hR _ _ ?_
    refine docs_cons k1 k2 k3 hG ?_ hv hg hu
    cases j with
    | true => simpa using k6 rfl
    | false => simpa using k5 rfl

end LibYaml
