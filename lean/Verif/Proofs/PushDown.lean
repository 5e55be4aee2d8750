import Verif.Proofs.ParserTags
import Verif.Spec.TokenGrammar

/-!
The parser as a push-down automaton over positions in the token sequence: no marks, no token source, no failure but
`none`. `astep` is the automaton, `ref_stateMachine` says that the parser behaves like it.
-/

namespace LibYaml

open Spec

variable {σ : Type}

/-- A configuration: state, stack, position of the next token, table of tag directives. -/
structure AC where
  st : PState
  stk : List PState
  pos : Nat
  tags : List TagDir

/-- An event and the next configuration. -/
abbrev AOut := Option (EvData × AC)

section machine
variable (f : Nat → Option TokData)

/-- Deliver `d` and return to the state on the stack. -/
def AC.pop (c : AC) (d : EvData) : AOut :=
  match c.stk with
  | [] => none
  | q :: K => some (d, { c with st := q, stk := K })

/-- Deliver `d` in state `q`. -/
def AC.to (c : AC) (q : PState) (d : EvData) : AOut := some (d, { c with st := q })

/-- Push a state. -/
def AC.push (c : AC) (q : PState) : AC := { c with stk := q :: c.stk }

/-- Pass one token. -/
def AC.next (c : AC) : AC := { c with pos := c.pos + 1 }

/-- Anchor, tag, number of tokens. -/
def aprops (k : Nat) : Option (Option Text × Option (Text × Text) × Nat) :=
  match f k with
  | none => none
  | some (.anchor a) =>
    match f (k + 1) with
    | none => none
    | some (.tag h s) => if f (k + 2) = none then none else some (some a, some (h, s), k + 2)
    | some _ => some (some a, none, k + 1)
  | some (.tag h s) =>
    match f (k + 1) with
    | none => none
    | some (.anchor a) => if f (k + 2) = none then none else some (some a, some (h, s), k + 2)
    | some _ => some (none, some (h, s), k + 1)
  | some _ => some (none, none, k)

/-- The tag. -/
def atag (tags : List TagDir) : Option (Text × Text) → Option (Option Text)
  | none => some none
  | some (h, s) =>
    if h = [] then some (some s)
    else (tags.find? fun d => d.handle == h).map fun d => some (d.pfx ++ s)

/-- The content of a node. -/
def acontent (b i : Bool) (a t : Option Text) (c : AC) : AOut :=
  match f c.pos with
  | none => none
  | some d =>
    if i && d == .blockEntry then c.to .indentlessSequenceEntry (.sequenceStart a t (untagged t) .block)
    else
      match d with
      | .scalar x style => c.next.pop (.scalar a t x (plainOk t style) (quotedOk t style) style)
      | .flowSequenceStart => c.to .flowSequenceFirstEntry (.sequenceStart a t (untagged t) .flow)
      | .flowMappingStart => c.to .flowMappingFirstKey (.mappingStart a t (untagged t) .flow)
      | d =>
        if b && d == .blockSequenceStart then c.to .blockSequenceFirstEntry (.sequenceStart a t (untagged t) .block)
        else if b && d == .blockMappingStart then c.to .blockMappingFirstKey (.mappingStart a t (untagged t) .block)
        else if a.isSome || t.isSome then c.pop (.scalar a t [] (untagged t) false .plain)
        else none

/-- A node. -/
def anode (b i : Bool) (c : AC) : AOut :=
  match f c.pos with
  | none => none
  | some (.alias a) => c.next.pop (.alias a)
  | some _ =>
    match aprops f c.pos with
    | none => none
    | some (a, t, k) =>
      match atag c.tags t with
      | none => none
      | some t => acontent f b i a t { c with pos := k }

/-- An optional node: not there in front of the tokens `stop`. -/
def aopt (b i : Bool) (stop : List TokData) (q : PState) (c : AC) : AOut :=
  match f c.pos with
  | none => none
  | some d => if d ∈ stop then c.to q absent else anode f b i (c.push q)

/-- Inside a block sequence. -/
def ablockSeq (c : AC) : AOut :=
  match f c.pos with
  | some .blockEntry => aopt f true false [.blockEntry, .blockEnd] .blockSequenceEntry c.next
  | some .blockEnd => c.next.pop .sequenceEnd
  | _ => none

def aindentless (c : AC) : AOut :=
  match f c.pos with
  | none => none
  | some .blockEntry => aopt f true false [.blockEntry, .key, .value, .blockEnd] .indentlessSequenceEntry c.next
  | some _ => c.pop .sequenceEnd

def ablockKey (c : AC) : AOut :=
  match f c.pos with
  | some .key => aopt f true true [.key, .value, .blockEnd] .blockMappingValue c.next
  | some .blockEnd => c.next.pop .mappingEnd
  | _ => none

def ablockValue (c : AC) : AOut :=
  match f c.pos with
  | none => none
  | some .value => aopt f true true [.key, .value, .blockEnd] .blockMappingKey c.next
  | some _ => c.to .blockMappingKey absent

/-- In front of an entry of a flow sequence. -/
def aflowItem (c : AC) : AOut :=
  match f c.pos with
  | none => none
  | some .key => c.next.to .flowSequenceEntryMappingKey (.mappingStart none none true .flow)
  | some .flowSequenceEnd => c.next.pop .sequenceEnd
  | some _ => anode f false false (c.push .flowSequenceEntry)

/-- Behind an entry of a flow sequence. -/
def aflowSeq (c : AC) : AOut :=
  match f c.pos with
  | some .flowSequenceEnd => c.next.pop .sequenceEnd
  | some .flowEntry => aflowItem f c.next
  | _ => none

def apairKey (c : AC) : AOut :=
  match f c.pos with
  | none => none
  | some .flowSequenceEnd => c.to .flowSequenceEntryMappingValue absent
  | some .value => c.next.to .flowSequenceEntryMappingValue absent
  | some .flowEntry => c.next.to .flowSequenceEntryMappingValue absent
  | some _ => anode f false false (c.push .flowSequenceEntryMappingValue)

def apairValue (c : AC) : AOut :=
  match f c.pos with
  | none => none
  | some .value => aopt f false false [.flowEntry, .flowSequenceEnd] .flowSequenceEntryMappingEnd c.next
  | some _ => c.to .flowSequenceEntryMappingEnd absent

def apairEnd (c : AC) : AOut :=
  match f c.pos with
  | none => none
  | some _ => c.to .flowSequenceEntry .mappingEnd

/-- In front of an entry of a flow mapping. -/
def aflowPair (c : AC) : AOut :=
  match f c.pos with
  | none => none
  | some .key => aopt f false false [.value, .flowEntry, .flowMappingEnd] .flowMappingValue c.next
  | some .flowMappingEnd => c.next.pop .mappingEnd
  | some _ => anode f false false (c.push .flowMappingEmptyValue)

/-- Behind an entry of a flow mapping. -/
def aflowMap (c : AC) : AOut :=
  match f c.pos with
  | some .flowMappingEnd => c.next.pop .mappingEnd
  | some .flowEntry => aflowPair f c.next
  | _ => none

def aflowValue (c : AC) : AOut :=
  match f c.pos with
  | none => none
  | some .value => aopt f false false [.flowEntry, .flowMappingEnd] .flowMappingKey c.next
  | some _ => c.to .flowMappingKey absent

def aflowEmpty (c : AC) : AOut :=
  match f c.pos with
  | none => none
  | some _ => c.to .flowMappingKey absent

/-- Skip DOCUMENT-END tokens. -/
def askip : Nat → Nat → Option Nat
  | 0, _ => none
  | fuel + 1, k =>
    match f k with
    | none => none
    | some .documentEnd => askip fuel (k + 1)
    | some _ => some k

/-- Directives: version, tags, table and the position behind. -/
def adirs : Nat → Option Version → List TagDir → List TagDir → Nat → Option (Option Version × List TagDir × List TagDir × Nat)
  | 0, _, _, _, _ => none
  | fuel + 1, v, ts, tbl, k =>
    match f k with
    | none => none
    | some (.versionDirective w) =>
      if v.isSome then none
      else if w.major ≠ 1 ∨ (w.minor ≠ 1 ∧ w.minor ≠ 2) then none
      else adirs fuel (some w) ts tbl (k + 1)
    | some (.tagDirective d) =>
      if tbl.any (fun e => e.handle == d.handle) then none else adirs fuel v (ts ++ [d]) (tbl ++ [d]) (k + 1)
    | some _ => some (v, ts, tbl, k)

/-- Add a directive whose handle is new. -/
def addHandle (d : TagDir) (tbl : List TagDir) : List TagDir :=
  if tbl.any (fun e => e.handle == d.handle) then tbl else tbl ++ [d]

/-- Add the predeclared handles. -/
def addPredeclared (tbl : List TagDir) : List TagDir :=
  addHandle ⟨lit ['!', '!'], lit ['t','a','g',':','y','a','m','l','.','o','r','g',',','2','0','0','2',':']⟩
    (addHandle ⟨lit ['!'], lit ['!']⟩ tbl)

def adocEnd (c : AC) : AOut :=
  match f c.pos with
  | none => none
  | some .documentEnd => some (.documentEnd false, { c with st := .documentStart, pos := c.pos + 1, tags := [] })
  | some _ => some (.documentEnd true, { c with st := .documentStart, tags := [] })

/-- A document with directives, or the end. -/
def aexplicit (fuel : Nat) (c : AC) : AOut :=
  match f c.pos with
  | none => none
  | some .streamEnd => c.next.to .done .streamEnd
  | some _ =>
    match adirs f fuel none [] c.tags c.pos with
    | none => none
    | some (v, ts, tbl, k) =>
      if f k = some .documentStart then
        some (.documentStart v ts false,
          { st := .documentContent, stk := .documentEnd :: c.stk, pos := k + 1, tags := addPredeclared tbl })
      else none

/-- One call of the parser. -/
def astep (fuel : Nat) (c : AC) : AOut :=
  match c.st with
  | .streamStart =>
    match f c.pos with
    | some (.streamStart enc) => c.next.to .implicitDocumentStart (.streamStart (some enc))
    | _ => none
  | .implicitDocumentStart =>
    match f c.pos with
    | none => none
    | some d =>
      if d.startsDocument then aexplicit f fuel c
      else if fuel = 0 then none
      else some (.documentStart none [] true, { c with st := .blockNode, stk := .documentEnd :: c.stk, tags := addPredeclared c.tags })
  | .documentStart =>
    match askip f fuel c.pos with
    | none => none
    | some k => aexplicit f fuel { c with pos := k }
  | .documentContent =>
    match f c.pos with
    | none => none
    | some d => if d.startsDocument || d == .documentEnd then c.pop absent else anode f true false c
  | .documentEnd => adocEnd f c
  | .blockNode => anode f true false c
  | .blockSequenceFirstEntry => if f c.pos = none then none else ablockSeq f c.next
  | .blockSequenceEntry => ablockSeq f c
  | .indentlessSequenceEntry => aindentless f c
  | .blockMappingFirstKey => if f c.pos = none then none else ablockKey f c.next
  | .blockMappingKey => ablockKey f c
  | .blockMappingValue => ablockValue f c
  | .flowSequenceFirstEntry => if f c.pos = none then none else aflowItem f c.next
  | .flowSequenceEntry => aflowSeq f c
  | .flowSequenceEntryMappingKey => apairKey f c
  | .flowSequenceEntryMappingValue => apairValue f c
  | .flowSequenceEntryMappingEnd => apairEnd f c
  | .flowMappingFirstKey => if f c.pos = none then none else aflowPair f c.next
  | .flowMappingKey => aflowMap f c
  | .flowMappingValue => aflowValue f c
  | .flowMappingEmptyValue => aflowEmpty f c
  | .done => none

end machine

/-! ### Positions -/

/-- The state of the source behind `k` tokens. -/
def TokSrc.after (S : TokSrc σ) (x : σ) : Nat → Option σ
  | 0 => some x
  | k + 1 =>
    match S.after x k with
    | none => none
    | some y =>
      match S.next y with
      | .ok (_, z) => some z
      | .error _ => none

/-- The tokens of the source by position. -/
def TokSrc.tok (S : TokSrc σ) (x : σ) (k : Nat) : Option TokData :=
  match S.after x k with
  | none => none
  | some y =>
    match S.next y with
    | .ok (t, _) => some t.data
    | .error _ => none

/-- The depth never reaches the limit. -/
def Shallow (S : TokSrc σ) (x : σ) (n : Int) : Prop := ∀ k y, S.after x k = some y → (S.depth y : Int) < n

/-- The parser has consumed `k` tokens. -/
def AtPos (S : TokSrc σ) (x : σ) (s : PS σ) (k : Nat) : Prop :=
  (s.avail = none ∧ S.after x k = some s.src) ∨
    ∃ t, s.avail = some t ∧ S.tok x k = some t.data ∧ S.after x (k + 1) = some s.src

/-- The parser is in the given configuration, whatever its state. -/
structure ARelN (S : TokSrc σ) (x : σ) (s : PS σ) (c : AC) : Prop where
  at_ : AtPos S x s c.pos
  stk : s.states = c.stk
  tags : s.tags = c.tags

/-- The parser is in the given configuration and has looked at the next token. -/
structure Live (S : TokSrc σ) (x : σ) (s : PS σ) (c : AC) (t : Token) : Prop extends ARelN S x s c where
  avail : s.avail = some t
  tok : S.tok x c.pos = some t.data

/-- The parser is in the given configuration. -/
structure ARel (S : TokSrc σ) (x : σ) (s : PS σ) (c : AC) : Prop extends ARelN S x s c where
  st : s.state = c.st

/-- The parser's action does what the automaton does. -/
def Ref (S : TokSrc σ) (x : σ) (n : Int) (m : PM σ Event) (s : PS σ) (r : AOut) : Prop :=
  wp m (fun e s' => ∃ c, r = some (e.data, c) ∧ ARel S x s' c) (fun err => r = none ∨ err = .ub ∨ ¬ Shallow S x n) s

section rules
variable {S : TokSrc σ} {x : σ} {n : Int} {s : PS σ} {c : AC} {r : AOut} {t : Token}

theorem relN_irrel {s' : PS σ} {c' : AC} (h : ARelN S x s c) (h1 : s'.avail = s.avail := by rfl) (h2 : s'.src = s.src := by rfl)
    (h3 : s'.states = c'.stk) (h4 : s'.tags = c'.tags) (h5 : c'.pos = c.pos := by rfl) : ARelN S x s' c' := by
  refine ⟨?_, h3, h4⟩
  have := h.at_
  unfold AtPos at this ⊢
  rw [h1, h2, h5]; exact this

theorem relN_src {y : σ} {k : Nat} (ht : S.tok x k = some t.data) (hy : S.after x (k + 1) = some y) :
    AtPos S x { s with avail := some t, src := y } k := .inr ⟨t, rfl, ht, hy⟩

theorem live_skip (h : Live S x s c t) : ARelN S x { s with avail := none, ended := (t.data == .streamEnd) } c.next := by
  refine ⟨?_, h.stk, h.tags⟩
  rcases h.at_ with ⟨h1, _⟩ | ⟨t', h1, _, h3⟩
  · rw [h.avail] at h1; cases h1
  · exact .inl ⟨rfl, h3⟩

theorem live_shallow (h : Live S x s c t) (hs : Shallow S x n) : (S.depth s.src : Int) < n := by
  rcases h.at_ with ⟨h1, _⟩ | ⟨t', h1, _, h3⟩
  · rw [h.avail] at h1; cases h1
  · exact hs _ _ h3

theorem wpeek {α : Type} {k : Token → PM σ α} {Q : α → PS σ → Prop} {E : Fail → Prop} (h : ARelN S x s c)
    (hn : S.tok x c.pos = none → ∀ e, E e) (h' : ∀ t s', Live S x s' c t → s'.state = s.state → wp (k t) Q E s') :
    wp (peek S >>= k) Q E s := by
  rw [wp_bind]
  unfold wp peek
  rcases h.at_ with ⟨h1, h2⟩ | ⟨t, h1, h2, h3⟩
  · rw [h1]
    simp only
    cases hx : S.next s.src with
    | error e => exact hn (by simp [TokSrc.tok, h2, hx]) e
    | ok p =>
      obtain ⟨t, y⟩ := p
      have ht : S.tok x c.pos = some t.data := by simp [TokSrc.tok, h2, hx]
      exact h' t _ ⟨⟨relN_src ht (by simp [TokSrc.after, h2, hx]), h.stk, h.tags⟩, rfl, ht⟩ rfl
  · rw [h1]
    exact h' t s ⟨h, h1, h2⟩ rfl

theorem wskip {α : Type} {k : Unit → PM σ α} {Q : α → PS σ → Prop} {E : Fail → Prop} (h : Live S x s c t)
    (h' : ∀ s', ARelN S x s' c.next → s'.state = s.state → wp (k ()) Q E s') : wp (skipTok >>= k) Q E s := by
  rw [wp_bind]
  unfold wp skipTok; rw [h.avail]; exact h' _ (live_skip h) rfl

theorem rpeek {k : Token → PM σ Event} (h : ARelN S x s c) (hn : S.tok x c.pos = none → r = none)
    (h' : ∀ t s', Live S x s' c t → s'.state = s.state → Ref S x n (k t) s' r) : Ref S x n (peek S >>= k) s r :=
  wpeek h (fun hx _ => .inl (hn hx)) h'

theorem rskip {k : Unit → PM σ Event} (h : Live S x s c t)
    (h' : ∀ s', ARelN S x s' c.next → s'.state = s.state → Ref S x n (k ()) s' r) : Ref S x n (skipTok >>= k) s r :=
  wskip h h'

theorem rset {k : Unit → PM σ Event} {q : PState} (h : Ref S x n (k ()) { s with state := q } r) :
    Ref S x n (setState q >>= k) s r := h

theorem rpush {k : Unit → PM σ Event} {q : PState} (h : Ref S x n (k ()) { s with states := q :: s.states } r) :
    Ref S x n (pushState q >>= k) s r := h

theorem rpushMark {k : Unit → PM σ Event} {m : Mark} (h : Ref S x n (k ()) { s with marks := m :: s.marks } r) :
    Ref S x n (pushMark m >>= k) s r := h

theorem rpop {k : Unit → PM σ Event} (h : ARelN S x s c)
    (h' : ∀ q K, c.stk = q :: K → Ref S x n (k ()) { s with state := q, states := K } r) :
    Ref S x n (popState >>= k) s r := by
  unfold Ref
  rw [wp_bind]
  unfold wp popState
  cases hs : s.states with
  | nil => exact .inr (.inl rfl)
  | cons q K => exact h' q K (by rw [← h.stk, hs])

theorem rpopMark {k : Mark → PM σ Event} (h' : ∀ m ms, Ref S x n (k m) { s with marks := ms } r) :
    Ref S x n (popMark >>= k) s r := by
  unfold Ref
  rw [wp_bind]
  unfold wp popMark
  cases s.marks with
  | nil => exact .inr (.inl rfl)
  | cons m ms => exact h' m ms

theorem rlevel {k : Unit → PM σ Event} {a b : Mark} (h : Live S x s c t) (h' : Ref S x n (k ()) s r) :
    Ref S x n (checkLevel S n a b >>= k) s r := by
  unfold Ref
  rw [wp_bind]
  unfold wp checkLevel
  by_cases hd : (S.depth s.src : Int) < n
  · rw [if_pos hd]; exact h'
  · rw [if_neg hd]; exact .inr (.inr fun hs => hd (live_shallow h hs))

theorem rfail {e : Fail} (h : r = none) : Ref S x n (pfail e) s r := .inl h

theorem rdone {e : Event} {c : AC} (h : ARelN S x s c) (hr : r = some (e.data, c)) (hs : s.state = c.st) :
    Ref S x n (pure e) s r := ⟨c, hr, h, hs⟩

/-- Set a state and deliver. -/
theorem rto {e : Event} {q : PState} (h : ARelN S x s c) (hr : r = c.to q e.data) :
    Ref S x n (setState q >>= fun _ => pure e) s r := by
  apply rset
  refine rdone (c := { c with st := q }) ⟨h.at_, h.stk, h.tags⟩ hr rfl

theorem rempty {q : PState} {m : Mark} (h : ARelN S x s c) (hr : r = c.to q absent) :
    Ref S x n (setState q >>= fun _ => emptyScalar m) s r := rto h hr

/-- Pop and deliver. -/
theorem rpopTo {e : Event} (h : ARelN S x s c) (hr : r = c.pop e.data) :
    Ref S x n (popState >>= fun _ => pure e) s r := by
  apply rpop h
  intro q K hq
  refine rdone (c := { c with st := q, stk := K }) ⟨h.at_, rfl, h.tags⟩ ?_ rfl
  rw [hr, AC.pop, hq]

/-- Pop, skip a token and deliver. -/
theorem rpopSkip {e : Event} (h : Live S x s c t) (hr : r = c.next.pop e.data) :
    Ref S x n (popState >>= fun _ => skipTok >>= fun _ => pure e) s r := by
  apply rpop h.toARelN
  intro q K hq
  have h' : Live S x { s with state := q, states := K } { c with st := q, stk := K } t :=
    ⟨⟨h.at_, rfl, h.tags⟩, h.avail, h.tok⟩
  apply rskip h'
  intro s' hs' hst
  refine rdone hs' ?_ hst
  rw [hr, AC.pop]
  simp only [AC.next, hq]

/-- Pop state and mark, skip a token and deliver. -/
theorem rpopMarkSkip {e : Event} (h : Live S x s c t) (hr : r = c.next.pop e.data) :
    Ref S x n (popState >>= fun _ => popMark >>= fun _ => skipTok >>= fun _ => pure e) s r := by
  apply rpop h.toARelN
  intro q K hq
  apply rpopMark
  intro m ms
  have h' : Live S x { s with state := q, states := K, marks := ms } { c with st := q, stk := K } t :=
    ⟨⟨h.at_, rfl, h.tags⟩, h.avail, h.tok⟩
  apply rskip h'
  intro s' hs' hst
  refine rdone hs' ?_ hst
  rw [hr, AC.pop]
  simp only [AC.next, hq]

end rules

/-! ### Nodes -/

section nodes
variable {S : TokSrc σ} {x : σ} {n : Int} {s : PS σ} {c : AC} {t : Token}

theorem ref_content {b i : Bool} {p : Props} {tag : Option Text} (h : Live S x s c t) :
    Ref S x n (nodeContent S n b i p tag t) s (acontent (S.tok x) b i p.anchor tag c) := by
  unfold nodeContent acontent
  rw [h.tok]
  simp only
  generalize hd : t.data = d
  by_cases h1 : (i && d == .blockEntry) = true
  · simp only [h1, if_true]
    exact rto h.toARelN rfl
  · simp only [h1]
    cases d with
    | scalar v style =>
      refine rpopSkip h ?_
      simp only [Bool.false_eq_true, if_false]
      congr 2
      simp only [quotedOk]
      cases tag with
      | none => cases style <;> rfl
      | some t => cases style <;> simp
    | flowSequenceStart => exact rlevel h (rto h.toARelN rfl)
    | flowMappingStart => exact rlevel h (rto h.toARelN rfl)
    | _ =>
      simp only [Bool.false_eq_true, if_false]
      split
      · exact rlevel h (rto h.toARelN rfl)
      · split
        · exact rlevel h (rto h.toARelN rfl)
        · split
          · exact rpopTo h.toARelN rfl
          · exact rfail rfl

theorem ref_props {Q : Props × Token → PS σ → Prop} {E : Fail → Prop} (h : Live S x s c t)
    (hn : aprops (S.tok x) c.pos = none → ∀ e, E e)
    (hQ : ∀ p t' s' k, aprops (S.tok x) c.pos = some (p.anchor, p.tag.map (fun q => (q.1, q.2.1)), k) →
      Live S x s' { c with pos := k } t' → s'.state = s.state → Q (p, t') s') :
    wp (parseProps S t) Q E s := by
  have htok := h.tok
  unfold parseProps
  generalize hd : t.data = d at htok
  cases d with
  | anchor a =>
    apply wskip h
    intro s1 h1 e1
    apply wpeek h1
    · intro hx e
      exact hn (by simp only [aprops, htok]; rw [show S.tok x (c.pos + 1) = none from hx]) e
    · intro t2 s2 h2 e2
      have htok2 := h2.tok
      generalize hd2 : t2.data = d2 at htok2
      have htok2' : S.tok x (c.pos + 1) = some d2 := htok2
      cases d2 with
      | tag hh ss =>
        apply wskip h2
        intro s3 h3 e3
        apply wpeek h3
        · intro hx e
          have hx' : S.tok x (c.pos + 2) = none := hx
          exact hn (by simp only [aprops, htok, htok2', hx', if_true]) e
        · intro t4 s4 h4 e4
          rw [wp_pure]
          have hx' : S.tok x (c.pos + 2) = some t4.data := h4.tok
          refine hQ _ _ _ (c.pos + 2) ?_ h4 (by rw [e4, e3, e2, e1])
          simp [aprops, htok, htok2', hx']
      | _ =>
        rw [wp_pure]
        refine hQ _ _ _ (c.pos + 1) ?_ h2 (by rw [e2, e1])
        simp [aprops, htok, htok2']
  | tag hh ss =>
    apply wskip h
    intro s1 h1 e1
    apply wpeek h1
    · intro hx e
      exact hn (by simp only [aprops, htok]; rw [show S.tok x (c.pos + 1) = none from hx]) e
    · intro t2 s2 h2 e2
      have htok2 := h2.tok
      generalize hd2 : t2.data = d2 at htok2
      have htok2' : S.tok x (c.pos + 1) = some d2 := htok2
      cases d2 with
      | anchor a =>
        apply wskip h2
        intro s3 h3 e3
        apply wpeek h3
        · intro hx e
          have hx' : S.tok x (c.pos + 2) = none := hx
          exact hn (by simp only [aprops, htok, htok2', hx', if_true]) e
        · intro t4 s4 h4 e4
          rw [wp_pure]
          have hx' : S.tok x (c.pos + 2) = some t4.data := h4.tok
          refine hQ _ _ _ (c.pos + 2) ?_ h4 (by rw [e4, e3, e2, e1])
          simp [aprops, htok, htok2', hx']
      | _ =>
        rw [wp_pure]
        refine hQ _ _ _ (c.pos + 1) ?_ h2 (by rw [e2, e1])
        simp [aprops, htok, htok2']
  | _ =>
    rw [wp_pure]
    refine hQ _ _ _ c.pos ?_ h rfl
    simp [aprops, htok]

theorem ref_node {b i : Bool} (h : ARelN S x s c) :
    Ref S x n (parseNode S n b i) s (anode (S.tok x) b i c) := by
  unfold parseNode
  apply rpeek h
  · intro hx; simp only [anode, hx]
  · intro t s1 h1 e1
    have htok := h1.tok
    generalize hd : t.data = d at htok
    have main : (∀ a, d ≠ .alias a) → Ref S x n (do
        let (p, token) ← parseProps S t
        let tag ← resolveTagM p
        nodeContent S n b i p tag token) s1 (anode (S.tok x) b i c) := by
      intro hna
      have e : anode (S.tok x) b i c = (match aprops (S.tok x) c.pos with
          | none => none
          | some (a, t, k) =>
            match atag c.tags t with
            | none => none
            | some t => acontent (S.tok x) b i a t { c with pos := k }) := by
        unfold anode
        rw [htok]
        cases d <;> first | rfl | exact absurd rfl (hna _)
      rw [e]
      unfold Ref
      rw [wp_bind]
      apply ref_props h1
      · intro hx err; rw [hx]; exact .inl rfl
      · intro p t' s' k hp hl est
        rw [hp]
        simp only
        unfold resolveTagM
        rw [wp_bind, wp_bind, wp_getTags, hl.tags]
        unfold resolveTag
        cases hpt : p.tag with
        | none => exact ref_content hl
        | some q =>
          obtain ⟨hh, ss, m⟩ := q
          simp only [Option.map_some, atag]
          by_cases h0 : hh = []
          · rw [if_pos h0, if_pos h0]
            exact ref_content hl
          · rw [if_neg h0, if_neg h0]
            cases hf : c.tags.find? (fun d => d.handle == hh) with
            | none => exact .inl rfl
            | some dd => exact ref_content hl
    cases d with
    | alias a =>
      refine rpopSkip h1 ?_
      simp only [anode, htok]
    | _ => exact main (by intro a; simp)

theorem ref_opt {b i : Bool} {stop : List TokData} {q : PState} {k : Token → PM σ Event} (h : ARelN S x s c)
    (h1 : ∀ t s', Live S x s' c t → t.data ∈ stop → Ref S x n (k t) s' (c.to q absent))
    (h2 : ∀ t s', Live S x s' c t → t.data ∉ stop → Ref S x n (k t) s' (anode (S.tok x) b i (c.push q))) :
    Ref S x n (peek S >>= k) s (aopt (S.tok x) b i stop q c) := by
  apply rpeek h
  · intro hx; simp only [aopt, hx]
  · intro t s' hl _
    simp only [aopt, hl.tok]
    split
    next hm => exact h1 t s' hl hm
    next hm => exact h2 t s' hl hm

theorem ref_pushNode {b i : Bool} {q : PState} (h : ARelN S x s c) :
    Ref S x n (pushState q >>= fun _ => parseNode S n b i) s (anode (S.tok x) b i (c.push q)) := by
  apply rpush
  apply ref_node
  exact ⟨h.at_, by simp [AC.push, h.stk], h.tags⟩

end nodes

end LibYaml
