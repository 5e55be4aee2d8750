import Verif.Proofs.Scanner

/-! The fetchers keep the invariant; the loop of `yaml_parser_fetch_more_tokens` terminates. -/

namespace LibYaml

open Spec

variable {T : List Nat} {e : Option Fail} {D : List Token} {K : Nat} {s : Scanner} {i : In}

local notation "safe" m:max Q:max s:max i:max => pw m Q (PointedErr T e) s i

/-! ### Implicit keys -/

/-- Insert a zero-width token before a token that starts at the same position. -/
theorem Toks.insert {m : Mark} {a b : List Token} {x y : Token} (h : Toks T m (a ++ x :: b)) (ha : a ≠ [])
    (h1 : y.start = x.start) (h2 : y.stop = x.start) (hy : isStreamTok y = false) : Toks T m (a ++ y :: x :: b) := by
  refine ⟨opened_insert h.opened ha hy, inOrder_insert h.order (by rw [h1]) (by rw [h2]) (h.marks x (by simp)).2.2.1, fun t ht => ?_⟩
  have hx := h.marks x (by simp)
  simp only [List.mem_append, List.mem_cons] at ht
  rcases ht with ht | rfl | rfl | ht
  · exact h.marks t (by simp [ht])
  · rw [h1, h2]; exact ⟨hx.1, hx.1, Nat.le_refl _, by omega⟩
  · exact hx
  · exact h.marks t (by simp [ht])

theorem neutral_key {t : Token} (h : t.data = .key) : blockNeutral t := by
  unfold blockNeutral opensBlock closesBlock; rw [h]; exact ⟨rfl, rfl⟩

/-- The tokens inserted for an implicit key. -/
def keyToks (start : Bool) (m : Mark) : List Token :=
  (if start then [{ data := .blockMappingStart, start := m, stop := m }] else []) ++ [{ data := .key, start := m, stop := m }]

/-- What `yaml_parser_fetch_value` does when there is a pending simple key. -/
theorem insertKey_eq {k : SimpleKey} {ks : List SimpleKey} (h : Base T e D K s i)
    (hset : ∀ k ∈ s.keys, k.possible = true → Settled (D ++ s.tokens) k) (hk : s.keys = k :: ks) (hp : k.possible = true) :
    (s.insertKey k = .error .memory) ∨
    ∃ a b, s.tokens = a ++ b ∧ (D ++ a).length = k.tokenNumber ∧
      ((s.flowLevel = 0 ∧ s.indent < k.mark.column ∧ s.insertKey k = .ok { s with
        indents := s.indent :: s.indents, indent := k.mark.column, tokens := a ++ keyToks true k.mark ++ b,
        keys := { k with possible := false } :: ks, allowed := false }) ∨
      (¬ (s.flowLevel = 0 ∧ s.indent < k.mark.column) ∧ s.insertKey k = .ok { s with
        tokens := a ++ keyToks false k.mark ++ b, keys := { k with possible := false } :: ks, allowed := false })) := by
  have hko := h.keys k (by rw [hk]; simp) hp
  have hs : k.tokenNumber < (D ++ s.tokens).length := hset k (by rw [hk]; simp) hp
  have hlo := hko.lo
  rw [List.length_append] at hs
  have hlen : k.tokenNumber - s.tokensParsed ≤ s.tokens.length := by rw [h.parsed]; omega
  have hins : s.insert k.tokenNumber { data := .key, start := k.mark, stop := k.mark } = .ok { s with
      tokens := s.tokens.take (k.tokenNumber - s.tokensParsed) ++ { data := .key, start := k.mark, stop := k.mark } ::
        s.tokens.drop (k.tokenNumber - s.tokensParsed) } := by
    unfold Scanner.insert
    rw [if_neg (by rw [h.parsed] at hlen ⊢; omega)]
  have hab : (D ++ s.tokens.take (k.tokenNumber - s.tokensParsed)).length = k.tokenNumber := by
    rw [List.length_append, List.length_take, h.parsed]; omega
  have htail : s.keys.tail = ks := by rw [hk]; rfl
  unfold Scanner.insertKey
  rw [hins]
  simp only
  unfold Scanner.rollIndent
  by_cases hf : s.flowLevel = 0
  · rw [if_neg (by simp [hf])]
    simp only
    by_cases hlt : s.indent < k.mark.column
    · rw [if_pos hlt]
      by_cases hbig : k.mark.column > maxInt
      · rw [if_pos hbig]; exact Or.inl rfl
      · rw [if_neg hbig]
        right
        refine ⟨s.tokens.take (k.tokenNumber - s.tokensParsed), s.tokens.drop (k.tokenNumber - s.tokensParsed), by simp,
          hab, Or.inl ⟨hf, hlt, ?_⟩⟩
        unfold Scanner.insert
        have hl2 : ¬ (k.tokenNumber < s.tokensParsed ∨ (s.tokens.take (k.tokenNumber - s.tokensParsed) ++
            ({ data := .key, start := k.mark, stop := k.mark } : Token) ::
              s.tokens.drop (k.tokenNumber - s.tokensParsed)).length < k.tokenNumber - s.tokensParsed) := by
          rw [List.length_append, List.length_take]
          rw [h.parsed] at hlen ⊢; omega
        simp only
        rw [if_neg hl2]
        have htk : (s.tokens.take (k.tokenNumber - s.tokensParsed)).length = k.tokenNumber - s.tokensParsed := by
          rw [List.length_take]; omega
        simp only [htail]
        rw [List.take_append_of_le_length (by omega), List.drop_append_of_le_length (by omega)]
        rw [List.take_of_length_le (by omega), List.drop_of_length_le (by omega)]
        simp [keyToks]
    · rw [if_neg hlt]
      right
      refine ⟨s.tokens.take (k.tokenNumber - s.tokensParsed), s.tokens.drop (k.tokenNumber - s.tokensParsed), by simp,
        hab, Or.inr ⟨fun h => hlt h.2, ?_⟩⟩
      simp [keyToks, htail]
  · rw [if_pos hf]
    right
    refine ⟨s.tokens.take (k.tokenNumber - s.tokensParsed), s.tokens.drop (k.tokenNumber - s.tokensParsed), by simp,
      hab, Or.inr ⟨fun h => hf h.1, ?_⟩⟩
    simp [keyToks, htail]

theorem toks_keyToks {m m0 : Mark} {a b : List Token} {x : Token} {st : Bool} (h : Toks T m (a ++ x :: b)) (ha : a ≠ [])
    (hx : x.start = m0) : Toks T m (a ++ keyToks st m0 ++ x :: b) := by
  have h1 := h.insert (y := { data := .key, start := m0, stop := m0 }) ha hx.symm hx.symm rfl
  cases st with
  | false => simpa [keyToks] using h1
  | true =>
    have h2 := h1.insert (y := { data := .blockMappingStart, start := m0, stop := m0 }) ha rfl rfl rfl
    simpa [keyToks] using h2

theorem blocks_keyToks {m0 : Mark} {a b : List Token} {n : Nat} {st : Bool} (h : blockLevel 0 (a ++ b) = some n) :
    blockLevel 0 (a ++ keyToks st m0 ++ b) = some (if st then n + 1 else n) := by
  have h1 : blockLevel 0 (a ++ ({ data := .key, start := m0, stop := m0 } : Token) :: b) = some n := by
    rw [blockLevel_insert_neutral (neutral_key rfl)]; exact h
  cases st with
  | false => simpa [keyToks] using h1
  | true =>
    have h2 := blockLevel_insert_start (t := { data := .blockMappingStart, start := m0, stop := m0 }) h1 rfl
    simpa [keyToks] using h2

theorem flow_keyToks {m0 : Mark} {a b : List Token} {st : Bool} : flowDepth (a ++ keyToks st m0 ++ b) = flowDepth (a ++ b) := by
  have h1 : flowDepth (a ++ ({ data := .key, start := m0, stop := m0 } : Token) :: b) = flowDepth (a ++ b) :=
    flowDepth_insert (flowStep_neutral (Or.inr (Or.inr rfl)))
  cases st with
  | false => simpa [keyToks] using h1
  | true =>
    have h2 := flowDepth_insert (a := a) (b := ({ data := .key, start := m0, stop := m0 } : Token) :: b)
      (t := { data := .blockMappingStart, start := m0, stop := m0 }) (flowStep_neutral (Or.inr (Or.inl rfl)))
    rw [h1] at h2
    simpa [keyToks] using h2

theorem Base.insertKey {k : SimpleKey} {ks : List SimpleKey} {a b : List Token} {st al : Bool} {ind : Int} {inds : List Int}
    (h : Base T e D 1 s i) (hset : ∀ k ∈ s.keys, k.possible = true → Settled (D ++ s.tokens) k) (hk : s.keys = k :: ks)
    (hp : k.possible = true) (hab : s.tokens = a ++ b) (hn : (D ++ a).length = k.tokenNumber)
    (hnest : NestedColumns (ind :: inds)) (hinds : inds.length = if st then s.indents.length + 1 else s.indents.length) :
    Base T e D 4 { s with indents := inds, indent := ind, tokens := a ++ keyToks st k.mark ++ b,
                          keys := { k with possible := false } :: ks, allowed := al } i := by
  have hko := h.keys k (by rw [hk]; simp) hp
  have hs : k.tokenNumber < (D ++ s.tokens).length := hset k (by rw [hk]; simp) hp
  have hA : D ++ s.tokens = (D ++ a) ++ b := by rw [hab]; simp
  have hA' : D ++ (a ++ keyToks st k.mark ++ b) = (D ++ a) ++ keyToks st k.mark ++ b := by simp
  have hDa : D ++ a ≠ [] := by
    intro hnil
    have := hko.pos
    rw [← hn, hnil] at this
    simp at this
  obtain ⟨x, b', rfl, hx⟩ : ∃ x b', b = x :: b' ∧ x.start = k.mark := by
    rcases hko.tok with ⟨t, h1, h2, _⟩ | ⟨h1, _⟩
    · rw [hA, ← hn, List.getElem?_append_right (Nat.le_refl _)] at h1
      cases b with
      | nil => simp at h1
      | cons y b' => simp at h1; subst h1; exact ⟨y, b', rfl, h2⟩
    · omega
  refine ⟨h.pos, h.started, h.parsed, ?_, hnest, ?_, ?_, ?_, ?_, ?_⟩
  · have := h.levels; rw [hk] at this; exact this
  · show Toks T s.mark (D ++ (a ++ keyToks st k.mark ++ x :: b'))
    rw [hA']
    exact toks_keyToks (by rw [← hA]; exact h.toks) hDa hx
  · show blockLevel 0 (D ++ (a ++ keyToks st k.mark ++ x :: b')) = some inds.length
    rw [hA', blocks_keyToks (n := s.indents.length) (by rw [← hA]; exact h.blocks), hinds]
  · show (D ++ (a ++ keyToks st k.mark ++ x :: b')).length + inds.length ≤ 4 * s.mark.index + 4
    have := h.count
    rw [hA] at this
    rw [hA', hinds]
    have hl : (keyToks st k.mark).length ≤ 2 ∧ ((keyToks st k.mark).length = if st then 2 else 1) := by
      cases st <;> simp [keyToks]
    simp only [List.length_append] at this ⊢
    cases st <;> simp only [if_true, Bool.false_eq_true, if_false] at hl ⊢ <;> omega
  · intro k' hk' hp'
    rcases List.mem_cons.mp hk' with rfl | hk'
    · cases hp'
    show KeyOk T D.length s.mark (D ++ (a ++ keyToks st k.mark ++ x :: b')) k'
    rw [hA']
    have ho := h.keys k' (by rw [hk]; simp [hk']) hp'
    have hlt : k'.tokenNumber < (D ++ a).length := by
      have := h.sorted
      rw [hk] at this
      rw [hn]
      exact (List.pairwise_cons.mp this).1 k' hk' hp hp'
    refine ⟨ho.lo, ho.pos, ho.path, Or.inl ?_⟩
    rcases ho.tok with ⟨t, h1, h2, h3⟩ | ⟨h1, _⟩
    · refine ⟨t, ?_, h2, h3⟩
      rw [hA, List.getElem?_append_left hlt] at h1
      rw [List.append_assoc, List.getElem?_append_left hlt]
      exact h1
    · rw [hA, List.length_append] at h1; omega
  · have := h.sorted
    rw [hk] at this
    obtain ⟨_, h2⟩ := List.pairwise_cons.mp this
    exact List.pairwise_cons.mpr ⟨fun k' _ hp => (by cases hp), h2⟩

theorem served_keyToks {m0 : Mark} {a b : List Token} {v : Token} {st : Bool} (h : KeysServed (a ++ b)) (hv : v.data = .value)
    (hl : v.start.line = m0.line) (h1 : m0.index ≤ v.start.index) (h2 : v.start.index ≤ m0.index + 1024) :
    KeysServed (a ++ keyToks st m0 ++ b ++ [v]) := by
  refine served_insert h (by rintro ⟨hk, _⟩; rw [hv] at hk; cases hk) fun t ht hk => ?_
  have : t = { data := .key, start := m0, stop := m0 } := by
    cases st <;> simp [keyToks] at ht
    · exact ht
    · rcases ht with rfl | rfl
      · cases hk.1
      · rfl
  subst this
  exact ⟨hv, hl, h1, h2⟩

theorem sm_valueKey {Q : Unit → Scanner → In → Prop} (h : Prepared T e D s i)
    (hQ : ∀ s', Base T e D 4 s' i → s'.mark = s.mark → flowDepth (D ++ s'.tokens) = s'.flowLevel →
      (∀ v : Token, v.data = .value → v.start = s.mark → KeysServed (D ++ (s'.tokens ++ [v]))) → Q () s' i) :
    safe (act valueKey) Q s i := by
  have hr := h.run
  cases hk : s.keys with
  | nil => have := hr.base.levels; rw [hk] at this; simp at this
  | cons k ks =>
    by_cases hp : k.possible = true
    · have hvk : valueKey s = s.insertKey k := by
        unfold valueKey; rw [hk]; simp only; rw [if_pos hp]
      have hko := hr.base.keys k (by rw [hk]; simp) hp
      have hfr := h.fresh k (by rw [hk]; simp) hp
      have hs := hr.settled k (by rw [hk]; simp) hp
      have hidx : k.mark.index < s.mark.index := by
        rcases hko.tok with ⟨_, _, _, h3⟩ | ⟨h3, _⟩
        · exact h3
        · unfold Settled at hs; omega
      have hline := pos_line_le hko.path hr.base.pos.onPath (Nat.le_of_lt hidx)
      have hserved : ∀ (a b : List Token) (st : Bool), s.tokens = a ++ b →
          ∀ v : Token, v.data = .value → v.start = s.mark → KeysServed (D ++ ((a ++ keyToks st k.mark ++ b) ++ [v])) := by
        intro a b st hab v hv hvs
        have := served_keyToks (m0 := k.mark) (a := D ++ a) (b := b) (v := v) (st := st)
          (by have := hr.served; rw [hab] at this; simpa using this) hv (by rw [hvs]; omega) (by rw [hvs]; omega)
          (by rw [hvs]; omega)
        simpa using this
      have hflow : ∀ (a b : List Token) (st : Bool), s.tokens = a ++ b →
          flowDepth (D ++ (a ++ keyToks st k.mark ++ b)) = s.flowLevel := by
        intro a b st hab
        have : D ++ (a ++ keyToks st k.mark ++ b) = (D ++ a) ++ keyToks st k.mark ++ b := by simp
        rw [this, flow_keyToks, ← hr.flow, hab]
        simp
      rcases insertKey_eq hr.base hr.settled hk hp with hm | ⟨a, b, hab, hn, ⟨_, hlt, heq⟩ | ⟨_, heq⟩⟩
      · exact pw_act (fun s' hs => by rw [hvk, hm] at hs; cases hs) (fun er hs => by rw [hvk, hm] at hs; cases hs; exact pointed_memory)
      · refine pw_act_ok (hvk.trans heq) (hQ _ ?_ rfl (hflow a b true hab) (hserved a b true hab))
        exact Base.insertKey hr.base hr.settled hk hp hab hn ⟨hlt, hr.base.nested⟩ rfl
      · refine pw_act_ok (hvk.trans heq) (hQ _ ?_ rfl (hflow a b false hab) (hserved a b false hab))
        exact Base.insertKey (ind := s.indent) (inds := s.indents) hr.base hr.settled hk hp hab hn hr.base.nested rfl
    · have hvk : valueKey s = match startBlock .blockMappingStart "mapping values are not allowed in this context" s with
          | .error e => .error e
          | .ok s => s.allow (s.flowLevel == 0) := by
        unfold valueKey; rw [hk]; simp only; rw [if_neg hp]; rfl
      have := sm_startBlock (data := .blockMappingStart) (problem := "mapping values are not allowed in this context")
        (Q := fun _ s' i' => i' = i ∧ Base T e D 3 s' i ∧ s'.mark = s.mark ∧ flowDepth (D ++ s'.tokens) = s'.flowLevel ∧
          KeysServed (D ++ s'.tokens)) hr (Or.inr rfl)
        (fun ind inds q h1 h2 h3 h4 => ⟨rfl, h1, rfl, h3, h4⟩)
      unfold pw act at this
      cases hsb : startBlock .blockMappingStart "mapping values are not allowed in this context" s with
      | error er =>
        rw [hsb] at this hvk
        exact pw_act (fun s' hs => by rw [hvk] at hs; cases hs) (fun er hs => by rw [hvk] at hs; cases hs; exact this)
      | ok s1 =>
        rw [hsb] at this hvk
        obtain ⟨_, h1, h2, h3, h4⟩ := this
        refine pw_act_ok hvk (hQ _ ?_ h2 h3 ?_)
        · have h1 := h1.mono (K' := 4) (by omega)
          exact ⟨h1.pos, h1.started, h1.parsed, h1.levels, h1.nested, h1.toks, h1.blocks, h1.count, h1.keys, h1.sorted⟩
        · intro v hv hvs
          show KeysServed (D ++ (s1.tokens ++ [v]))
          rw [append_assoc']
          exact served_snoc h4 (by rintro ⟨hk, _⟩; rw [hv] at hk; cases hk)

/-! ### The fetchers -/

/-- A token that is neither a frame nor a block start or end. -/
def plainTok (d : TokData) : Prop :=
  match d with
  | .streamStart _ | .streamEnd | .blockSequenceStart | .blockMappingStart | .blockEnd => False
  | _ => True

theorem plainTok_stream {t : Token} (h : plainTok t.data) : isStreamTok t = false := by
  unfold isStreamTok
  cases hd : t.data <;> rw [hd] at h <;> first | rfl | exact h.elim

theorem plainTok_neutral {t : Token} (h : plainTok t.data) : blockNeutral t := by
  unfold blockNeutral opensBlock closesBlock
  cases hd : t.data <;> rw [hd] at h <;> first | exact ⟨rfl, rfl⟩ | exact h.elim

theorem sm_enqueue {m' : Mark} {i' : In} {t : Token} {Q : Unit → Scanner → In → Prop} (h : Base T e D 4 s i)
    (hat : At T e m' i') (hlt : i'.cs.length < i.cs.length) (ht : Scanned T s.mark m' t) (hp : plainTok t.data)
    (hflow : flowDepth (D ++ (s.tokens ++ [t])) = s.flowLevel) (hserved : KeysServed (D ++ (s.tokens ++ [t])))
    (hQ : ∀ s' i', Running T e D s' i' → i'.cs.length < i.cs.length → Q () s' i') :
    safe (act (Scanner.enqueue t)) Q { s with mark := m' } i' :=
  pw_act_ok rfl (hQ _ _ (h.finish hat hlt ht (plainTok_stream hp) (plainTok_neutral hp) hflow hserved) hlt)

theorem sm_fetchIndicator {n : Nat} {data : TokData} {ds r : List Nat} {Q : Unit → Scanner → In → Prop} (h : Base T e D 4 s i)
    (hh : Has n i) (hcs : i.cs = ds ++ r) (hl : ds.length = n) (hn : n ≠ 0) (hd : ∀ c ∈ ds, c ≠ 0 ∧ isBreak c = false)
    (hp : plainTok data)
    (hflow : ∀ t : Token, t.data = data → flowDepth (D ++ (s.tokens ++ [t])) = s.flowLevel)
    (hserved : ∀ t : Token, t.data = data → t.start = s.mark → t.stop ≠ t.start → KeysServed (D ++ (s.tokens ++ [t])))
    (hQ : ∀ s' i', Running T e D s' i' → i'.cs.length < i.cs.length → Q () s' i') : safe (fetchIndicator n data) Q s i := by
  unfold fetchIndicator
  rw [pw_bind, pw_get, pw_bind]
  refine pw_lex (pw_skipN h.pos hh hcs hl hd fun m' i' h1 c1 => ?_)
  have hlt : i'.cs.length < i.cs.length := by rw [c1, hcs, List.length_append]; omega
  rw [pw_bind, pw_get]
  have hidx : s.mark.index < m'.index := by have := h.pos.index; have := h1.index; omega
  refine sm_enqueue h h1 hlt ⟨rfl, h1.onPath, Nat.le_of_lt hidx, Nat.le_refl _⟩ hp (hflow _ rfl) (hserved _ rfl rfl ?_) hQ
  intro heq
  have : m'.index = s.mark.index := congrArg Mark.index heq
  omega

theorem sm_indicator1 {data : TokData} {Q : Unit → Scanner → In → Prop} (h : Base T e D 4 s i) (hh : Has 4 i)
    (hsol : Solid i.cs) (hp : plainTok data)
    (hflow : ∀ t : Token, t.data = data → flowDepth (D ++ (s.tokens ++ [t])) = s.flowLevel)
    (hserved : ∀ t : Token, t.data = data → t.start = s.mark → t.stop ≠ t.start → KeysServed (D ++ (s.tokens ++ [t])))
    (hQ : ∀ s' i', Running T e D s' i' → i'.cs.length < i.cs.length → Q () s' i') : safe (fetchIndicator 1 data) Q s i := by
  obtain ⟨c, r, hcs, hc1, hc2⟩ := hsol
  exact sm_fetchIndicator (ds := [c]) (r := r) h (hh.mono (by omega)) hcs rfl (by omega) (by simp [hc1, hc2]) hp hflow hserved hQ

theorem flow_other {A : List Token} {q : List Token} {t : Token} {n : Nat} (h : flowDepth (A ++ q) = n) (ht : ∀ n, flowStep n t = n) :
    flowDepth (A ++ (q ++ [t])) = n := by
  rw [append_assoc', flowDepth_snoc, ht, h]

theorem served_other {A q : List Token} {t : Token} (h : KeysServed (A ++ q)) (ht : ¬ implicitKey t) :
    KeysServed (A ++ (q ++ [t])) := by
  rw [append_assoc']; exact served_snoc h ht

/-- Append a token that comes from a lexical function, with a possible key saved or removed before. -/
theorem sm_lexed {m' : Mark} {i' : In} {t : Token} {Q : Unit → Scanner → In → Prop} (h : Base T e D 4 s i)
    (hat : At T e m' i') (hlt : i'.cs.length < i.cs.length) (ht : Scanned T s.mark m' t) (hp : plainTok t.data)
    (hnk : t.data ≠ .key) (hfl : ∀ n, flowStep n t = n) (hflow : flowDepth (D ++ s.tokens) = s.flowLevel)
    (hserved : KeysServed (D ++ s.tokens))
    (hQ : ∀ s' i', Running T e D s' i' → i'.cs.length < i.cs.length → Q () s' i') :
    safe (act (Scanner.enqueue t)) Q { s with mark := m' } i' :=
  sm_enqueue h hat hlt ht hp (flow_other hflow hfl) (served_other hserved fun hk => hnk hk.1) hQ

theorem sm_fetchFlowStart {d : TokData} {Q : Unit → Scanner → In → Prop} (h : Prepared T e D s i) (hh : Has 4 i)
    (hsol : Solid i.cs) (hd : d = .flowSequenceStart ∨ d = .flowMappingStart)
    (hQ : ∀ s' i', Running T e D s' i' → i'.cs.length < i.cs.length → Q () s' i') : safe (fetchFlowStart d) Q s i := by
  have hr := h.run
  unfold fetchFlowStart
  rw [pw_bind]
  refine sm_saveKey hr.base hr.settled fun ks h1 => ?_
  rw [pw_bind]
  refine sm_increaseFlow h1 fun h2 => ?_
  rw [pw_bind]
  refine sm_allow h2 fun h3 => ?_
  refine sm_indicator1 (h3.mono (by omega)) hh hsol (by rcases hd with rfl | rfl <;> trivial) ?_ ?_ hQ
  · intro t ht
    show flowDepth (D ++ (s.tokens ++ [t])) = s.flowLevel + 1
    rw [append_assoc', flowDepth_snoc, hr.flow]
    unfold flowStep
    rcases hd with rfl | rfl <;> rw [ht]
  · intro t ht _ hne
    exact served_other hr.served fun hk => hne hk.2

theorem sm_fetchFlowEnd {d : TokData} {Q : Unit → Scanner → In → Prop} (h : Prepared T e D s i) (hh : Has 4 i)
    (hsol : Solid i.cs) (hd : d = .flowSequenceEnd ∨ d = .flowMappingEnd)
    (hQ : ∀ s' i', Running T e D s' i' → i'.cs.length < i.cs.length → Q () s' i') : safe (fetchFlowEnd d) Q s i := by
  have hr := h.run
  unfold fetchFlowEnd
  rw [pw_bind]
  refine sm_removeKey hr.base fun k ks _ _ h1 => ?_
  rw [pw_bind]
  refine sm_decreaseFlow h1 fun ks h2 => ?_
  rw [pw_bind]
  refine sm_allow h2 fun h3 => ?_
  refine sm_indicator1 (h3.mono (by omega)) hh hsol (by rcases hd with rfl | rfl <;> trivial) ?_ ?_ hQ
  · intro t ht
    show flowDepth (D ++ (s.tokens ++ [t])) = s.flowLevel - 1
    rw [append_assoc', flowDepth_snoc, hr.flow]
    unfold flowStep
    rcases hd with rfl | rfl <;> rw [ht]
  · intro t ht _ hne
    exact served_other hr.served fun hk => hne hk.2

theorem flowStep_of {t : Token} {d : TokData} (ht : t.data = d)
    (hd : match d with | .flowSequenceStart | .flowMappingStart | .flowSequenceEnd | .flowMappingEnd => False | _ => True) (n : Nat) :
    flowStep n t = n := by
  unfold flowStep
  rw [ht]
  cases d <;> first | rfl | exact hd.elim

theorem sm_fetchFlowEntry {Q : Unit → Scanner → In → Prop} (h : Prepared T e D s i) (hh : Has 4 i) (hsol : Solid i.cs)
    (hQ : ∀ s' i', Running T e D s' i' → i'.cs.length < i.cs.length → Q () s' i') : safe fetchFlowEntry Q s i := by
  have hr := h.run
  unfold fetchFlowEntry
  rw [pw_bind]
  refine sm_removeKey hr.base fun k ks _ _ h1 => ?_
  rw [pw_bind]
  refine sm_allow h1 fun h2 => ?_
  exact sm_indicator1 (h2.mono (by omega)) hh hsol trivial (fun t ht => flow_other hr.flow (flowStep_of ht trivial))
    (fun t ht _ hne => served_other hr.served fun hk => hne hk.2) hQ

theorem sm_fetchBlockEntry {Q : Unit → Scanner → In → Prop} (h : Prepared T e D s i) (hh : Has 4 i) (hsol : Solid i.cs)
    (hQ : ∀ s' i', Running T e D s' i' → i'.cs.length < i.cs.length → Q () s' i') : safe fetchBlockEntry Q s i := by
  have hr := h.run
  unfold fetchBlockEntry
  rw [pw_bind]
  refine sm_startBlock hr (Or.inl rfl) fun ind inds q h1 _ hf hs => ?_
  rw [pw_bind]
  refine sm_removeKey h1 fun k ks _ _ h2 => ?_
  rw [pw_bind]
  refine sm_allow h2 fun h3 => ?_
  exact sm_indicator1 (h3.mono (by omega)) hh hsol trivial (fun t ht => flow_other hf (flowStep_of ht trivial))
    (fun t ht _ hne => served_other hs fun hk => hne hk.2) hQ

theorem sm_allowOf {K : Nat} {g : Scanner → Bool} {Q : Unit → Scanner → In → Prop} (h : Base T e D K s i)
    (hQ : Base T e D K { s with allowed := g s } i → Q () { s with allowed := g s } i) :
    safe (act fun s => s.allow (g s)) Q s i :=
  pw_act_ok rfl (hQ ⟨h.pos, h.started, h.parsed, h.levels, h.nested, h.toks, h.blocks, h.count, h.keys, h.sorted⟩)

theorem sm_fetchKey {Q : Unit → Scanner → In → Prop} (h : Prepared T e D s i) (hh : Has 4 i) (hsol : Solid i.cs)
    (hQ : ∀ s' i', Running T e D s' i' → i'.cs.length < i.cs.length → Q () s' i') : safe fetchKey Q s i := by
  have hr := h.run
  unfold fetchKey
  rw [pw_bind]
  refine sm_startBlock hr (Or.inr rfl) fun ind inds q h1 _ hf hs => ?_
  rw [pw_bind]
  refine sm_removeKey h1 fun k ks _ _ h2 => ?_
  rw [pw_bind]
  refine sm_allowOf (g := fun s => s.flowLevel == 0) h2 fun h3 => ?_
  exact sm_indicator1 (h3.mono (by omega)) hh hsol trivial (fun t ht => flow_other hf (flowStep_of ht trivial))
    (fun t ht _ hne => served_other hs fun hk => hne hk.2) hQ

theorem sm_fetchValue {Q : Unit → Scanner → In → Prop} (h : Prepared T e D s i) (hh : Has 4 i) (hsol : Solid i.cs)
    (hQ : ∀ s' i', Running T e D s' i' → i'.cs.length < i.cs.length → Q () s' i') : safe fetchValue Q s i := by
  unfold fetchValue
  rw [pw_bind]
  refine sm_valueKey h fun s' h1 hm hf hs => ?_
  exact sm_indicator1 h1 hh hsol trivial (fun t ht => flow_other hf (flowStep_of ht trivial))
    (fun t ht hst _ => hs t ht (by rw [hst, hm])) hQ

theorem sm_fetchAnchor {f : Nat} {a : Bool} {c : Nat} {r : List Nat} {Q : Unit → Scanner → In → Prop} (hb : BadOk e)
    (h : Prepared T e D s i) (hh : Has 4 i) (hcs : i.cs = c :: r) (hc : c = 38 ∨ c = 42) (hf : i.cs.length < f)
    (hQ : ∀ s' i', Running T e D s' i' → i'.cs.length < i.cs.length → Q () s' i') : safe (fetchAnchor f a) Q s i := by
  have hr := h.run
  unfold fetchAnchor
  rw [pw_bind]
  refine sm_saveKey hr.base hr.settled fun ks h1 => ?_
  rw [pw_bind]
  refine sm_allow h1 fun h2 => ?_
  rw [pw_bind]
  refine pw_lexAt h2.pos.spot (safe_scanAnchor hb h2.pos (hh.mono (by omega)) hcs hc hf fun t m' i' k1 k2 k3 k4 => ?_)
  obtain ⟨x, hx⟩ := k4
  exact sm_lexed (h2.mono (by omega)) k1 k2 k3 (by rw [hx]; cases a <;> trivial) (by rw [hx]; cases a <;> simp)
    (fun n => by cases a <;> exact flowStep_of hx trivial n) hr.flow hr.served hQ

theorem sm_fetchTag {f : Nat} {r : List Nat} {Q : Unit → Scanner → In → Prop} (hb : BadOk e)
    (h : Prepared T e D s i) (hcs : i.cs = 33 :: r) (hf : i.cs.length < f)
    (hQ : ∀ s' i', Running T e D s' i' → i'.cs.length < i.cs.length → Q () s' i') : safe (fetchTag f) Q s i := by
  have hr := h.run
  unfold fetchTag
  rw [pw_bind]
  refine sm_saveKey hr.base hr.settled fun ks h1 => ?_
  rw [pw_bind]
  refine sm_allow h1 fun h2 => ?_
  rw [pw_bind, pw_get, pw_bind]
  refine pw_lexAt h2.pos.spot (safe_scanTag hb h2.pos hcs hf fun t m' i' k1 k2 k3 k4 => ?_)
  obtain ⟨x, y, hx⟩ := k4
  exact sm_lexed (h2.mono (by omega)) k1 k2 k3 (by rw [hx]; trivial) (by rw [hx]; simp)
    (flowStep_of hx trivial) hr.flow hr.served hQ

theorem sm_fetchBlockScalar {f : Nat} {l : Bool} {c : Nat} {r : List Nat} {Q : Unit → Scanner → In → Prop} (hb : BadOk e)
    (h : Prepared T e D s i) (hh : Has 4 i) (hcs : i.cs = c :: r) (hc : c = 124 ∨ c = 62) (hf : i.cs.length < f)
    (hQ : ∀ s' i', Running T e D s' i' → i'.cs.length < i.cs.length → Q () s' i') : safe (fetchBlockScalar f l) Q s i := by
  have hr := h.run
  unfold fetchBlockScalar
  rw [pw_bind]
  refine sm_removeKey hr.base fun k ks _ _ h1 => ?_
  rw [pw_bind]
  refine sm_allow h1 fun h2 => ?_
  rw [pw_bind, pw_get, pw_bind]
  refine pw_lexAt h2.pos.spot (safe_scanBlockScalar hb h2.pos (hh.mono (by omega)) hcs hc hf fun t m' i' k1 k2 k3 k4 => ?_)
  obtain ⟨x, y, hx⟩ := k4
  exact sm_lexed (h2.mono (by omega)) k1 k2 k3 (by rw [hx]; trivial) (by rw [hx]; simp)
    (flowStep_of hx trivial) hr.flow hr.served hQ

theorem sm_fetchFlowScalar {f : Nat} {l : Bool} {c : Nat} {r : List Nat} {Q : Unit → Scanner → In → Prop} (hb : BadOk e)
    (h : Prepared T e D s i) (hh : Has 4 i) (hcs : i.cs = c :: r) (hc : c = 34 ∨ c = 39) (hf : i.cs.length < f)
    (hQ : ∀ s' i', Running T e D s' i' → i'.cs.length < i.cs.length → Q () s' i') : safe (fetchFlowScalar f l) Q s i := by
  have hr := h.run
  unfold fetchFlowScalar
  rw [pw_bind]
  refine sm_saveKey hr.base hr.settled fun ks h1 => ?_
  rw [pw_bind]
  refine sm_allow h1 fun h2 => ?_
  rw [pw_bind]
  refine pw_lexAt h2.pos.spot (safe_scanFlowScalar hb h2.pos (hh.mono (by omega)) hcs hc hf fun t m' i' k1 k2 k3 k4 => ?_)
  obtain ⟨x, y, hx⟩ := k4
  exact sm_lexed (h2.mono (by omega)) k1 k2 k3 (by rw [hx]; trivial) (by rw [hx]; simp)
    (flowStep_of hx trivial) hr.flow hr.served hQ

theorem sm_fetchPlainScalar {f : Nat} {Q : Unit → Scanner → In → Prop} (hb : BadOk e)
    (h : Prepared T e D s i) (hp : PlainStart (s.flowLevel != 0) s.mark i.cs) (hf : i.cs.length < f)
    (hQ : ∀ s' i', Running T e D s' i' → i'.cs.length < i.cs.length → Q () s' i') : safe (fetchPlainScalar f) Q s i := by
  have hr := h.run
  unfold fetchPlainScalar
  rw [pw_bind]
  refine sm_saveKey hr.base hr.settled fun ks h1 => ?_
  rw [pw_bind]
  refine sm_allow h1 fun h2 => ?_
  rw [pw_bind, pw_get, pw_bind]
  refine pw_lexAt h2.pos.spot (safe_scanPlainScalar hb h2.pos hp hf fun t b m' i' k1 k2 k3 k4 => ?_)
  obtain ⟨x, y, hx⟩ := k4
  simp only
  rw [pw_bind]
  refine pw_act_ok rfl ?_
  have h3 := h2.mono (K' := 4) (by omega)
  have h3' : Base T e D 4 { s with keys := ks, allowed := b || false } i :=
    ⟨h3.pos, h3.started, h3.parsed, h3.levels, h3.nested, h3.toks, h3.blocks, h3.count, h3.keys, h3.sorted⟩
  exact sm_lexed (s := { s with keys := ks, allowed := b || false }) h3' k1 k2 k3 (by rw [hx]; trivial) (by rw [hx]; simp)
    (flowStep_of hx trivial) hr.flow hr.served hQ

theorem Running.forget {k : SimpleKey} {ks : List SimpleKey} (h : Running T e D s i) (hk : s.keys = k :: ks) :
    Running T e D { s with keys := { k with possible := false } :: ks } i := by
  refine ⟨h.base.forget hk, ?_, h.flow, h.served⟩
  intro k' hk' hp
  rcases List.mem_cons.mp hk' with rfl | hk'
  · cases hp
  · exact h.settled k' (by rw [hk]; simp [hk']) hp

/-- `resetAll` before a document marker or a directive. -/
theorem sm_resetAll {Q : Unit → Scanner → In → Prop} (h : Running T e D s i)
    (hQ : ∀ s', Running T e D s' i → s'.mark = s.mark → Q () s' i) : safe resetAll Q s i := by
  unfold resetAll
  rw [pw_bind]
  have hrest : ∀ s', Running T e D s' i → s'.mark = s.mark → safe (do
      act Scanner.removeKey
      act (Scanner.allow false)) Q s' i := by
    intro s' h' hm
    rw [pw_bind]
    refine sm_removeKey h'.base fun k ks hk _ _ => ?_
    have h2 := h'.forget hk
    refine pw_act_ok rfl (hQ _ ⟨?_, h2.settled, h2.flow, h2.served⟩ hm)
    have h3 := h2.base
    exact ⟨h3.pos, h3.started, h3.parsed, h3.levels, h3.nested, h3.toks, h3.blocks, h3.count, h3.keys, h3.sorted⟩
  exact sm_unrollIndent h (by omega) (fun _ => hrest s h rfl)
    (fun pre ind inds _ h1 _ _ h4 => hrest _ (h.unroll h1 h4) rfl)

theorem sm_fetchDirective {f : Nat} {r : List Nat} {Q : Unit → Scanner → In → Prop} (hb : BadOk e)
    (h : Prepared T e D s i) (hh : Has 4 i) (hcs : i.cs = 37 :: r) (hf : i.cs.length < f)
    (hQ : ∀ s' i', Running T e D s' i' → i'.cs.length < i.cs.length → Q () s' i') : safe (fetchDirective f) Q s i := by
  unfold fetchDirective
  rw [pw_bind]
  refine sm_resetAll h.run fun s' hr _ => ?_
  rw [pw_bind]
  refine pw_lexAt hr.base.pos.spot (safe_scanDirective hb hr.base.pos (hh.mono (by omega)) hcs hf fun t m' i' k1 k2 k3 k4 => ?_)
  have hx : plainTok t.data ∧ t.data ≠ .key ∧ ∀ n, flowStep n t = n := by
    rcases k4 with ⟨x, hx⟩ | ⟨x, hx⟩ <;> exact ⟨by rw [hx]; trivial, by rw [hx]; simp, flowStep_of hx trivial⟩
  exact sm_lexed (hr.base.mono (by omega)) k1 k2 k3 hx.1 hx.2.1 hx.2.2 hr.flow hr.served hQ

theorem sm_fetchDocumentIndicator {c d : Nat} {r : List Nat} {data : TokData} {Q : Unit → Scanner → In → Prop}
    (h : Prepared T e D s i) (hh : Has 4 i) (hcs : i.cs = c :: c :: c :: d :: r) (hc : c ≠ 0 ∧ isBreak c = false)
    (hd : data = .documentStart ∨ data = .documentEnd)
    (hQ : ∀ s' i', Running T e D s' i' → i'.cs.length < i.cs.length → Q () s' i') : safe (fetchDocumentIndicator data) Q s i := by
  unfold fetchDocumentIndicator
  rw [pw_bind]
  refine sm_resetAll h.run fun s' hr _ => ?_
  refine sm_fetchIndicator (ds := [c, c, c]) (r := d :: r) (hr.base.mono (by omega)) (hh.mono (by omega)) (by simpa using hcs) rfl
    (by omega) (by simp [hc]) (by rcases hd with rfl | rfl <;> trivial) ?_ ?_ hQ
  · intro t ht
    exact flow_other hr.flow (flowStep_of ht (by rcases hd with rfl | rfl <;> trivial))
  · intro t ht _ hne
    exact served_other hr.served fun hk => hne hk.2

/-! ### The end of the stream -/

/-- A complete token stream: the tokens before the end of the input, the BLOCK-ENDs of what is still open, STREAM-END. -/
structure Final (T : List Nat) (A : List Token) : Prop where
  parts : ∃ A0 B t m u r, A = A0 ++ B ++ [t] ∧ T = u ++ 0 :: r ∧ m = markOf u ∧ Toks T m A0 ∧
    (∀ b ∈ B, b = { data := .blockEnd, start := forceLine m, stop := forceLine m }) ∧
    t = { data := .streamEnd, start := forceLine m, stop := forceLine m } ∧ A.length ≤ 4 * m.index + 2
  blocks : ∃ l, blockLevel 0 A = some l ∧ (flowDepth A = 0 → l = 0)
  served : KeysServed A

/-- The scanner has reached the end of the stream. -/
structure Halted (s : Scanner) (i : In) : Prop where
  started : s.startProduced = true
  keys : s.keys ≠ []
  nested : NestedColumns (s.indent :: s.indents)
  nul : ∃ r, i.cs = 0 :: r
  has : 1 ≤ i.avail
  closed : s.flowLevel = 0 → s.indent ≤ -1
  col : s.mark.column = 0

/-- STREAM-END is in the queue. -/
structure ScanEnded (T : List Nat) (D : List Token) (s : Scanner) (i : In) : Prop where
  parsed : s.tokensParsed = D.length
  ne : s.tokens ≠ []
  stale : ∀ k ∈ s.keys, k.possible = true → k.mark.line < s.mark.line
  final : Final T (D ++ s.tokens)
  rest : Halted s i
  here : AtEnd T s.mark
  marks : ∀ k ∈ s.keys, k.possible = true → IsPos T k.mark ∧ k.mark.index < T.length

theorem forceLine_line {m x : Mark} (hx : IsPos T x) (hm : IsPos T m) (hlt : x.index < m.index) :
    x.line < (forceLine m).line := by
  unfold forceLine
  by_cases h : m.column = 0
  · rw [if_pos h]; exact pos_line_lt hx hm hlt h
  · rw [if_neg h]
    have := pos_line_le hx hm (Nat.le_of_lt hlt)
    show x.line < m.line + 1
    omega

theorem forceLine_col (m : Mark) : (forceLine m).column = 0 := by
  unfold forceLine
  by_cases h : m.column = 0
  · rw [if_pos h]; exact h
  · rw [if_neg h]

theorem forceLine_index (m : Mark) : (forceLine m).index = m.index := by
  unfold forceLine; split <;> rfl

theorem nested_last {ind : Int} {inds pre : List Int} {ind' : Int} {inds' : List Int} (h : NestedColumns (ind' :: inds'))
    (hle : ind' ≤ -1) : inds' = [] := by
  have : ∀ (l : List Int) (x : Int), NestedColumns (x :: l) → -1 ≤ x ∧ (l ≠ [] → -1 < x) := by
    intro l
    induction l with
    | nil => intro x hx; exact ⟨by rw [show x = -1 from hx]; omega, fun h => absurd rfl h⟩
    | cons y l ih =>
      intro x hx
      have := ih y hx.2
      exact ⟨by have := hx.1; omega, fun _ => by have := hx.1; omega⟩
  cases inds' with
  | nil => rfl
  | cons y l => have := (this _ _ h).2 (by simp); omega

theorem served_ends {A B : List Token} (h : KeysServed A) (hB : ∀ t ∈ B, t.data ≠ .key) : KeysServed (A ++ B) := by
  refine served_append h ?_
  induction B with
  | nil => trivial
  | cons t B ih => exact ⟨fun hk => absurd hk.1 (hB t (by simp)), ih fun x hx => hB x (by simp [hx])⟩

/-- The final state, however the indentation was unrolled. -/
theorem ended_of {r : List Nat} {ks : List SimpleKey} {pre : List Int} {ind : Int} {inds : List Int} {al : Bool} {lv : Nat}
    (h : Running T e D s i) (hcs : i.cs = 0 :: r) (hh : Has 4 i) (hne : ks ≠ [])
    (hks : ∀ k ∈ ks, k.possible = true → k ∈ s.keys) (hlv : s.indents.length = pre.length + lv)
    (hclosed : s.flowLevel = 0 → lv = 0) (hnest : NestedColumns (ind :: inds)) (hind : s.flowLevel = 0 → ind ≤ -1) :
    ScanEnded T D { s with mark := forceLine s.mark, indent := ind, indents := inds, keys := ks, allowed := al, tokens :=
      ((s.tokens ++ endToks (forceLine s.mark) pre) ++
        [{ data := .streamEnd, start := forceLine s.mark, stop := forceLine s.mark }]) } i := by
  have hb := h.base
  obtain ⟨u, hu, hm, hn⟩ := hb.pos.path
  rw [hcs] at hu
  have hA : D ++ ((s.tokens ++ endToks (forceLine s.mark) pre) ++
      [({ data := .streamEnd, start := forceLine s.mark, stop := forceLine s.mark } : Token)]) =
      (D ++ s.tokens) ++ endToks (forceLine s.mark) pre ++
      [({ data := .streamEnd, start := forceLine s.mark, stop := forceLine s.mark } : Token)] := by simp
  have hav : 1 ≤ i.avail := by
    rcases hh with hh | ⟨hh, _⟩
    · omega
    · rw [hh, hcs]; simp
  refine ⟨hb.parsed, by simp, ?_, ⟨?_, ?_, ?_⟩, ⟨hb.started, hne, hnest, ⟨r, hcs⟩, hav, hind, forceLine_col s.mark⟩, ⟨u, r, hu, by rw [hm]⟩,
    fun k hk hp => ?_⟩
  rotate_right
  · have hko := hb.keys k (hks k hk hp) hp
    refine ⟨hko.path, ?_⟩
    have h1 := hb.pos.index
    rw [hcs] at h1
    simp at h1
    rcases hko.tok with ⟨_, _, _, h3⟩ | ⟨_, h3⟩
    · omega
    · rw [h3]; omega
  · intro k hk hp
    have hko := hb.keys k (hks k hk hp) hp
    have hs := h.settled k (hks k hk hp) hp
    rcases hko.tok with ⟨_, _, _, h3⟩ | ⟨h3, _⟩
    · exact forceLine_line hko.path hb.pos.onPath h3
    · unfold Settled at hs; omega
  · refine ⟨D ++ s.tokens, endToks (forceLine s.mark) pre, _, s.mark, u, r, hA, hu, hm, hb.toks, ?_, rfl, ?_⟩
    · intro b hbb; exact mem_endToks hbb
    · show (D ++ ((s.tokens ++ endToks (forceLine s.mark) pre) ++ [_])).length ≤ _
      rw [hA]
      have := hb.count
      simp only [List.length_append, endToks_length, List.length_cons, List.length_nil] at this ⊢
      omega
  · show ∃ l, blockLevel 0 (D ++ ((s.tokens ++ endToks (forceLine s.mark) pre) ++ [_])) = some l ∧
      (flowDepth (D ++ ((s.tokens ++ endToks (forceLine s.mark) pre) ++ [_])) = 0 → l = 0)
    rw [hA]
    refine ⟨lv, ?_, ?_⟩
    · rw [blockLevel_snoc_neutral ⟨rfl, rfl⟩, blockLevel_append, hb.blocks]
      simp only [Option.bind_some]
      rw [hlv, ← endToks_length (m := forceLine s.mark) (pre := pre)]
      exact blockLevel_ends fun t ht => by rw [mem_endToks ht]
    · rw [flowDepth_snoc, flowDepth_ends (fun t ht => by rw [mem_endToks ht]), h.flow]
      exact hclosed
  · show KeysServed (D ++ ((s.tokens ++ endToks (forceLine s.mark) pre) ++ [_]))
    rw [hA]
    exact served_snoc (served_ends h.served fun t ht => by rw [mem_endToks ht]; simp) (by rintro ⟨hk, _⟩; cases hk)

theorem sm_fetchStreamEnd {r : List Nat} {Q : Unit → Scanner → In → Prop} (h : Running T e D s i) (hcs : i.cs = 0 :: r)
    (hh : Has 4 i) (hQ : ∀ s', ScanEnded T D s' i → Q () s' i) : safe fetchStreamEnd Q s i := by
  unfold fetchStreamEnd resetAll
  rw [pw_bind]
  refine pw_act_ok rfl ?_
  rw [pw_bind, pw_bind]
  -- what happens after unrolling
  have hrest : ∀ (pre : List Int) (ind : Int) (inds : List Int) (lv : Nat), s.indents.length = pre.length + lv →
      (s.flowLevel = 0 → lv = 0) → NestedColumns (ind :: inds) → (s.flowLevel = 0 → ind ≤ -1) →
      safe (do
        act Scanner.removeKey
        act (Scanner.allow false)) (fun _ s' i' => safe (act fun s => s.enqueue { data := .streamEnd, start := s.mark, stop := s.mark }) Q s' i')
        { s with mark := forceLine s.mark, indent := ind, indents := inds,
                 tokens := s.tokens ++ endToks (forceLine s.mark) pre } i := by
    intro pre ind inds lv hlv hcl hnest hind
    rw [pw_bind]
    cases hk : s.keys with
    | nil => have := h.base.levels; rw [hk] at this; simp at this
    | cons k ks =>
      unfold Scanner.removeKey
      by_cases hr : (k.possible && k.required) = true
      · refine pw_act (fun s' hs => ?_) (fun er hs => ?_) <;> simp only [hk] at hs <;> rw [if_pos hr] at hs <;> cases hs
        obtain ⟨u, hu, hm, _⟩ := h.base.pos.path
        exact pointed_scanner ((h.base.keys k (by rw [hk]; simp) (by revert hr; cases k.possible <;> simp)).spot h.base.pos.spot)
          (.inr ⟨u, r, by rw [← hcs]; exact hu, by rw [hm]⟩)
      · refine pw_act_ok (by simp only [hk]; rw [if_neg hr]) ?_
        refine pw_act_ok rfl ?_
        refine pw_act_ok rfl (hQ _ ?_)
        refine ended_of (ks := { k with possible := false } :: ks) h hcs hh (by simp) ?_ hlv hcl hnest hind
        intro k' hk' hp'
        rcases List.mem_cons.mp hk' with rfl | hk'
        · cases hp'
        · rw [hk]; simp [hk']
  unfold Scanner.unrollIndent
  by_cases hf : s.flowLevel = 0
  · obtain ⟨pre, ind', inds', h1, h2, h3, h4, h5⟩ :=
      unrollLoop_spec (column := -1) (mark := forceLine s.mark) (q := s.tokens) h.base.nested (by omega)
    have hnil := nested_last (ind := 0) (inds := []) (pre := []) h4 h3
    subst hnil
    refine pw_act_ok ?_ (hrest pre ind' [] 0 ?_ (fun _ => rfl) h4 fun _ => h3)
    · simp only; rw [if_neg (by simp [hf]), h5]
    · have := congrArg List.length h1
      simp at this; omega
  · refine pw_act_ok ?_ (hrest [] s.indent s.indents s.indents.length (by simp) (fun h0 => absurd h0 hf) h.base.nested fun h0 => absurd h0 hf)
    simp only; rw [if_pos hf]; simp [endToks]

/-! ### Fetching -/

theorem sm_fetchKind {f : Nat} {kind : Kind} {Q : Unit → Scanner → In → Prop} (hb : BadOk e) (h : Prepared T e D s i) (hh : Has 4 i)
    (hk : KindOk (s.flowLevel != 0) s.mark i.cs kind) (hf : i.cs.length < f)
    (hQ : ∀ s' i', Running T e D s' i' → i'.cs.length < i.cs.length → Q () s' i')
    (hQe : ∀ s', kind = .streamEnd → ScanEnded T D s' i → Q () s' i) : safe (fetchKind f kind) Q s i := by
  cases kind with
  | streamEnd => obtain ⟨r, hr⟩ := hk; exact sm_fetchStreamEnd h.run hr hh fun s' => hQe s' rfl
  | directive => obtain ⟨r, hr⟩ := hk; exact sm_fetchDirective hb h hh hr hf hQ
  | documentStart => obtain ⟨d, r, _, hr, _⟩ := hk; exact sm_fetchDocumentIndicator h hh hr (by decide) (Or.inl rfl) hQ
  | documentEnd => obtain ⟨d, r, _, hr, _⟩ := hk; exact sm_fetchDocumentIndicator h hh hr (by decide) (Or.inr rfl) hQ
  | flowStart d => exact sm_fetchFlowStart h hh hk.1 hk.2 hQ
  | flowEnd d => exact sm_fetchFlowEnd h hh hk.1 hk.2 hQ
  | flowEntry => exact sm_fetchFlowEntry h hh hk hQ
  | blockEntry => exact sm_fetchBlockEntry h hh hk hQ
  | key => exact sm_fetchKey h hh hk hQ
  | value => exact sm_fetchValue h hh hk hQ
  | anchor a => obtain ⟨c, r, hr, hc⟩ := hk; exact sm_fetchAnchor hb h hh hr hc hf hQ
  | tag => obtain ⟨r, hr⟩ := hk; exact sm_fetchTag hb h hr hf hQ
  | block l => obtain ⟨c, r, hr, hc⟩ := hk; exact sm_fetchBlockScalar hb h hh hr hc hf hQ
  | quoted l => obtain ⟨c, r, hr, hc⟩ := hk; exact sm_fetchFlowScalar hb h hh hr hc hf hQ
  | plain => exact sm_fetchPlainScalar hb h hk hf hQ
  | unknown => unfold fetchKind pw; exact pointed_scanner h.run.base.pos.spot (.inl h.run.base.pos.spot)

/-- Move the position forward over characters that belong to no token. -/
theorem Running.advance {m' : Mark} {i' : In} (h : Running T e D s i) (hat : At T e m' i') (hl : i'.cs.length ≤ i.cs.length) :
    Running T e D { s with mark := m' } i' := by
  have hm : s.mark.index ≤ m'.index := index_le h.base.pos hat hl
  have hb := h.base
  refine ⟨⟨hat, hb.started, hb.parsed, hb.levels, hb.nested, hb.toks.mono hm, hb.blocks, ?_, ?_, hb.sorted⟩, h.settled, h.flow, h.served⟩
  · have := hb.count
    show (D ++ s.tokens).length + s.indents.length ≤ 4 * m'.index + 1
    omega
  · intro k hk hp
    have := (hb.keys k hk hp).append (B := []) (h.settled k hk hp) hm
    simpa using this

theorem Running.allow {b : Bool} (h : Running T e D s i) : Running T e D { s with allowed := b } i :=
  ⟨⟨h.base.pos, h.base.started, h.base.parsed, h.base.levels, h.base.nested, h.base.toks, h.base.blocks, h.base.count,
    h.base.keys, h.base.sorted⟩, h.settled, h.flow, h.served⟩

theorem Running.dropStale (h : Running T e D s i) : Running T e D { s with keys := s.keys.map (dropStale s.mark) } i :=
  ⟨h.base.stale, fun k hk hp => h.settled k (mem_dropStale hk hp).1 hp, h.flow, h.served⟩

theorem stale_false {m : Mark} {k : SimpleKey} (h : k.stale m = false) (hp : k.possible = true) :
    m.line ≤ k.mark.line ∧ m.index ≤ k.mark.index + 1024 := by
  simp only [SimpleKey.stale, hp, Bool.true_and, Bool.or_eq_false_iff, decide_eq_false_iff_not] at h
  omega

theorem sm_fetchNext {f : Nat} {Q : Unit → Scanner → In → Prop} (hb : BadOk e) (h : Running T e D s i) (hf : i.cs.length < f)
    (hQ : ∀ s' i', Running T e D s' i' → i'.cs.length < i.cs.length → Q () s' i')
    (hQe : ∀ s' i', ScanEnded T D s' i' → Q () s' i') : safe (fetchNext f) Q s i := by
  unfold fetchNext
  rw [pw_bind]
  refine pw_lexAt h.base.pos.spot (safe_cache hb h.base.pos (by decide) fun i1 h1 c1 hh1 => ?_)
  have r1 := h.advance h1 (by rw [c1]; exact Nat.le_refl _)
  rw [pw_bind, pw_get]
  rw [if_pos h.base.started]
  rw [pw_bind]
  refine pw_lexAt r1.base.pos.spot (safe_scanToNext hb r1.base.pos (by rw [c1]; exact hf) (by rw [c1]; exact hf) fun a m2 i2 h2 l2 hh2 hbr => ?_)
  rw [c1] at l2
  have r2 := h.advance h2 l2
  rw [pw_bind]
  refine pw_act_ok rfl ?_
  have r3 := r2.allow (b := a)
  rw [pw_bind]
  refine sm_stale r3.base fun _ => ?_
  have r4 := r3.dropStale
  have fresh : ∀ k ∈ s.keys.map (LibYaml.dropStale m2), k.possible = true → m2.line ≤ k.mark.line ∧ m2.index ≤ k.mark.index + 1024 :=
    fun k hk hp => stale_false (mem_dropStale hk hp).2 hp
  rw [pw_bind]
  have hrest : ∀ s', Prepared T e D s' i2 → s'.flowLevel = s.flowLevel → safe (do
      lex (cacheC 4)
      let kind ← lex (dispatch (s.flowLevel != 0))
      fetchKind f kind) Q s' i2 := by
    intro s' hp hfl
    rw [pw_bind]
    refine pw_lexAt hp.run.base.pos.spot (safe_cache hb hp.run.base.pos (by decide) fun i3 h3 c3 hh3 => ?_)
    have hp' : Prepared T e D s' i3 := by
      refine ⟨?_, hp.fresh, hp.margin⟩
      have := hp.run.advance h3 (by rw [c3]; exact Nat.le_refl _)
      exact this
    rw [pw_bind]
    refine pw_lex (pw_dispatch h3 hh3 (by rw [c3]; exact hbr) fun kind hk => ?_)
    exact sm_fetchKind hb hp' hh3 (by rw [hfl]; exact hk) (by rw [c3]; omega)
      (fun s'' i'' k1 k2 => hQ s'' i'' k1 (by rw [c3] at k2; omega)) (fun s'' _ k1 => hQe s'' _ k1)
  have hunroll : safe (act (Scanner.unrollIndent m2.column)) (fun _ s' i' => safe (do
      lex (cacheC 4)
      let kind ← lex (dispatch (s.flowLevel != 0))
      fetchKind f kind) Q s' i') { s with mark := m2, allowed := a, keys := s.keys.map (LibYaml.dropStale m2) } i2 := by
    refine sm_unrollIndent r4 (by omega) (fun hf0 => hrest _ ⟨r4, fresh, fun h0 => absurd h0 hf0⟩ rfl) ?_
    intro pre ind inds hf0 p1 p2 p3 p4
    exact hrest _ ⟨r4.unroll p1 p4, fresh, fun _ => p3⟩ rfl
  exact hunroll

/-- The state before the first token. -/
structure FreshSt (T : List Nat) (e : Option Fail) (s : Scanner) (i : In) : Prop where
  pos : At T e s.mark i
  eq : s = { enc := s.enc }

theorem sm_fetchFirst {f : Nat} {Q : Unit → Scanner → In → Prop} (hb : BadOk e) (h : FreshSt T e s i)
    (hQ : ∀ s' i', Running T e [] s' i' → i'.cs.length ≤ i.cs.length → Q () s' i') : safe (fetchNext f) Q s i := by
  unfold fetchNext
  rw [pw_bind]
  refine pw_lexAt h.pos.spot (safe_cache hb h.pos (by decide) fun i1 h1 c1 hh1 => ?_)
  rw [pw_bind, pw_get]
  have heq := h.eq
  have hpos : IsPos T s.mark := h.pos.onPath
  rw [if_neg (by rw [heq]; simp)]
  unfold fetchStreamStart
  refine pw_act_ok rfl (hQ _ _ ?_ (by rw [c1]; exact Nat.le_refl _))
  have hm : s.mark = {} := by rw [heq]
  have hk : s.keys = [] := by rw [heq]
  have ht : s.tokens = [] := by rw [heq]
  have hi : s.indents = [] := by rw [heq]
  have hfl : s.flowLevel = 0 := by rw [heq]
  have hpr : s.tokensParsed = 0 := by rw [heq]
  refine ⟨⟨h1, rfl, hpr, by simp [hk, hfl], ?_, ?_, ?_, ?_, ?_, ?_⟩, ?_, ?_, ?_⟩
  · show NestedColumns (-1 :: s.indents); rw [hi]; exact rfl
  · show Toks T s.mark ([] ++ (s.tokens ++ [_]))
    rw [ht]
    refine ⟨⟨_, [], s.enc, rfl, rfl, by simp⟩, by simp [InOrder], ?_⟩
    intro t hmem
    simp at hmem; subst hmem
    exact ⟨hpos, hpos, Nat.le_refl _, Nat.le_refl _⟩
  · show blockLevel 0 ([] ++ (s.tokens ++ [_])) = some s.indents.length
    rw [ht, hi]; rfl
  · show ([] ++ (s.tokens ++ [_])).length + s.indents.length ≤ 4 * s.mark.index + 1
    rw [ht, hi]; simp
  · intro k hk' hp
    have hk' : k ∈ ({} : SimpleKey) :: s.keys := hk'
    rw [hk] at hk'
    simp at hk'; subst hk'; cases hp
  · show List.Pairwise _ (({} : SimpleKey) :: s.keys)
    rw [hk]; simp
  · intro k hk' hp
    have hk' : k ∈ ({} : SimpleKey) :: s.keys := hk'
    rw [hk] at hk'
    simp at hk'; subst hk'; cases hp
  · show flowDepth ([] ++ (s.tokens ++ [_])) = s.flowLevel
    rw [ht, hfl]; rfl
  · show KeysServed ([] ++ (s.tokens ++ [_]))
    rw [ht]
    exact ⟨(by rintro ⟨hk, _⟩; cases hk), trivial⟩

/-- No pending key is required. -/
def NoneRequired (s : Scanner) : Prop := ∀ k ∈ s.keys, k.possible = true → k.required = false

/-- All keys are stale at the end, so the loop stops. -/
theorem ended_stop' {f n : Nat} {E : Fail → Prop} {Q : Unit → Scanner → In → Prop} (h : ScanEnded T D s i) (hn : 0 < n)
    (hQ : ∀ s', ScanEnded T D s' i → s'.headPending = false → (∃ ks, s' = { s with keys := ks }) → NoneRequired s → NoneRequired s' → Q () s' i)
    (hE : ∀ er, s.stale = .error er → E er) : pw (fetchMore f n) Q E s i := by
  cases n with
  | zero => omega
  | succ n =>
    unfold fetchMore
    rw [pw_bind, pw_get]
    have hne : s.tokens.isEmpty = false := by
      cases ht : s.tokens with
      | nil => exact absurd ht h.ne
      | cons _ _ => rfl
    rw [hne, if_neg (by simp), pw_bind]
    refine pw_act (fun s' hs => ?_) hE
    obtain ⟨hs', hreq⟩ : s' = { s with keys := s.keys.map (dropStale s.mark) } ∧ ∀ k ∈ s.keys, k.stale s.mark = true → k.required = false := by
      unfold Scanner.stale at hs
      cases hr : staleKeys s.mark s.keys with
      | error er => rw [hr] at hs; cases hs
      | ok ks =>
        rw [hr] at hs; cases hs
        obtain ⟨rfl, h2⟩ := staleKeys_ok hr
        exact ⟨rfl, h2⟩
    subst hs'
    rw [pw_bind, pw_get]
    have hnone : ∀ k ∈ s.keys.map (dropStale s.mark), k.possible = false := by
      intro k hk
      cases hp : k.possible with
      | false => rfl
      | true =>
        obtain ⟨h1, h2⟩ := mem_dropStale hk hp
        have := h.stale k h1 hp
        have := (stale_false h2 hp).1
        omega
    have hhead : (Scanner.headPending { s with keys := s.keys.map (dropStale s.mark) }) = false := by
      unfold Scanner.headPending
      refine List.any_eq_false.mpr fun k hk => ?_
      simp [hnone k hk]
    rw [if_neg (by rw [hhead]; simp)]
    refine hQ _ ⟨h.parsed, h.ne, ?_, h.final, ⟨h.rest.started, by simpa using h.rest.keys, h.rest.nested, h.rest.nul, h.rest.has, h.rest.closed, h.rest.col⟩, h.here, fun k hk hp => by rw [hnone k hk] at hp; cases hp⟩ hhead ⟨_, rfl⟩ ?_ ?_
    · intro k hk hp
      rw [hnone k hk] at hp; cases hp
    · intro k hk hp
      refine hreq k hk ?_
      have := h.stale k hk hp
      simp [SimpleKey.stale, hp, this]
    · intro k hk hp
      rw [hnone k hk] at hp; cases hp

theorem stale_error {er : Fail} (hen : ScanEnded T D s i) (h : s.stale = .error er) : PointedErr T e er := by
  unfold Scanner.stale at h
  cases hr : staleKeys s.mark s.keys with
  | error er => rw [hr] at h; cases h; exact staleKeys_error hr (.inr hen.here) fun k hk hp => ⟨(hen.marks k hk hp).1, fun _ => (hen.marks k hk hp).2⟩
  | ok ks => rw [hr] at h; cases h

theorem ended_stop {f n : Nat} {Q : Unit → Scanner → In → Prop} (h : ScanEnded T D s i) (hn : 0 < n)
    (hQ : ∀ s', ScanEnded T D s' i → s'.headPending = false → s'.tokens = s.tokens → Q () s' i) : safe (fetchMore f n) Q s i :=
  ended_stop' h hn (fun s' h1 h2 h3 _ _ => hQ s' h1 h2 (by obtain ⟨ks, rfl⟩ := h3; rfl)) fun _ => stale_error h

/-- How much fuel the loop needs. -/
theorem sm_fetchMore {f n : Nat} {Q : Unit → Scanner → In → Prop} (hb : BadOk e) (h : Running T e D s i) (hf : i.cs.length < f)
    (hn : i.cs.length + 1 < n)
    (hQ : ∀ s' i', Running T e D s' i' → i'.cs.length ≤ i.cs.length → s'.tokens ≠ [] → s'.headPending = false → Q () s' i')
    (hQe : ∀ s' i', ScanEnded T D s' i' → s'.headPending = false → Q () s' i') : safe (fetchMore f n) Q s i := by
  induction n generalizing s i with
  | zero => omega
  | succ n ih =>
    have hstep : ∀ s, Running T e D s i → safe (do fetchNext f; fetchMore f n) Q s i := by
      intro s h
      rw [pw_bind]
      refine sm_fetchNext hb h hf (fun s' i' k1 k2 => ?_) (fun s' i' k1 => ?_)
      · exact ih k1 (by omega) (by omega) (fun s'' i'' j1 j2 j3 j4 => hQ s'' i'' j1 (by omega) j3 j4)
      · exact ended_stop k1 (by omega) fun s'' j1 j2 _ => hQe s'' _ j1 j2
    unfold fetchMore
    rw [pw_bind, pw_get]
    refine pw_ite (fun _ => hstep s h) (fun hne => ?_)
    rw [pw_bind]
    refine sm_stale h.base fun _ => ?_
    rw [pw_bind, pw_get]
    have h' := h.dropStale
    refine pw_ite (fun _ => hstep _ h') (fun hp => ?_)
    refine hQ _ _ h' (Nat.le_refl _) ?_ (by simpa using hp)
    intro hnil
    exact hne (by rw [show s.tokens = [] from hnil]; rfl)

/-- What is known between calls. -/
inductive Next (T : List Nat) (e : Option Fail) (D : List Token) (s : Scanner) (i : In) : Prop
  | fresh (hD : D = []) (h : FreshSt T e s i)
  | running (h : Running T e D s i)
  | ended (h : ScanEnded T D s i)

/-- After a token was delivered. -/
inductive After (T : List Nat) (e : Option Fail) (D : List Token) (s : Scanner) (i : In) (t : Token) : Prop
  | running (h : Running T e (D ++ [t]) s i) (ht : t.data ≠ .streamEnd)
  | ended (h : ScanEnded T (D ++ [t]) s i) (ht : t.data ≠ .streamEnd)
  | done (h : Final T (D ++ [t])) (ht : t.data = .streamEnd) (hr : Halted s i) (he : s.tokens = [])
      (hs : ∀ k ∈ s.keys, k.possible = true → k.mark.line < s.mark.line)

theorem final_last {A q : List Token} (h : Final T (A ++ q)) (hq : q ≠ []) : ∀ t ∈ A, t.data ≠ .streamEnd := by
  obtain ⟨A0, B, x, m, u, r, h1, _, _, h2, h3, _, _⟩ := h.parts
  obtain ⟨q', y, rfl⟩ : ∃ q' y, q = q' ++ [y] := ⟨q.dropLast, q.getLast hq, (List.dropLast_concat_getLast hq).symm⟩
  have : A ++ q' = A0 ++ B := by
    have := congrArg List.dropLast h1
    rw [← List.append_assoc] at this
    simpa using this
  intro t ht hs
  have : t ∈ A0 ++ B := by rw [← this]; simp [ht]
  rcases List.mem_append.mp this with ht | ht
  · obtain ⟨y, rest, en, rfl, k1, k2⟩ := h2.opened
    rcases List.mem_cons.mp ht with rfl | ht
    · rw [hs] at k1; cases k1
    · have := k2 t ht
      simp [isStreamTok, hs] at this
  · rw [h3 t ht] at hs; cases hs

theorem running_no_end (h : Toks T s.mark D) : ∀ t ∈ D, t.data ≠ .streamEnd := by
  intro t ht hs
  obtain ⟨y, rest, en, rfl, k1, k2⟩ := h.opened
  rcases List.mem_cons.mp ht with rfl | ht
  · rw [hs] at k1; cases k1
  · have := k2 t ht
    simp [isStreamTok, hs] at this

theorem dequeue_running {t : Token} {q : List Token} (h : Running T e D s i) (ht : s.tokens = t :: q)
    (hh : s.headPending = false) :
    Running T e (D ++ [t]) { s with tokens := q, tokensParsed := s.tokensParsed + 1 } i := by
  have hb := h.base
  have hA : D ++ [t] ++ q = D ++ s.tokens := by rw [ht]; simp
  refine ⟨⟨hb.pos, hb.started, by simp [hb.parsed], hb.levels, hb.nested, ?_, ?_, ?_, ?_, hb.sorted⟩, ?_, ?_, ?_⟩
  · show Toks T s.mark (D ++ [t] ++ q); rw [hA]; exact hb.toks
  · show blockLevel 0 (D ++ [t] ++ q) = _; rw [hA]; exact hb.blocks
  · show (D ++ [t] ++ q).length + _ ≤ _; rw [hA]; exact hb.count
  · intro k hk hp
    show KeyOk T (D ++ [t]).length s.mark (D ++ [t] ++ q) k
    rw [hA]
    have := hb.keys k hk hp
    refine ⟨?_, this.pos, this.path, this.tok⟩
    have hne : k.tokenNumber ≠ D.length := by
      intro heq
      unfold Scanner.headPending at hh
      have := List.any_eq_false.mp hh k hk
      simp [hp, heq, hb.parsed] at this
    have := this.lo
    simp; omega
  · intro k hk hp
    show Settled (D ++ [t] ++ q) k
    rw [hA]; exact h.settled k hk hp
  · show flowDepth (D ++ [t] ++ q) = _; rw [hA]; exact h.flow
  · show KeysServed (D ++ [t] ++ q); rw [hA]; exact h.served

/-- One call: no fault, and the invariant is kept. -/
theorem sm_nextToken {f : Nat} (hb : BadOk e) (h : Next T e D s i) (hf : T.length + 2 < f) :
    safe (nextToken f) (fun t s' i' => After T e D s' i' t) s i := by
  unfold nextToken
  rw [pw_bind]
  have hR : ∀ s' i', Running T e D s' i' → s'.tokens ≠ [] → s'.headPending = false →
      safe (fun s => match s.tokens with
        | [] => .fail .ub
        | t :: ts => .ret (t, { s with tokens := ts, tokensParsed := s.tokensParsed + 1 }))
        (fun t s' i' => After T e D s' i' t) s' i' := by
    intro s' i' h' hne hh
    cases ht : s'.tokens with
    | nil => exact absurd ht hne
    | cons t q =>
      unfold pw
      simp only [ht, Prog.run]
      refine .running (dequeue_running h' ht hh) ?_
      exact running_no_end (s := s') h'.base.toks t (by rw [ht]; simp)
  have hE : ∀ s' i', ScanEnded T D s' i' →
      safe (fun s => match s.tokens with
        | [] => .fail .ub
        | t :: ts => .ret (t, { s with tokens := ts, tokensParsed := s.tokensParsed + 1 }))
        (fun t s' i' => After T e D s' i' t) s' i' := by
    intro s' i' h'
    cases ht : s'.tokens with
    | nil => exact absurd ht h'.ne
    | cons t q =>
      unfold pw
      simp only [ht, Prog.run]
      have hA : D ++ [t] ++ q = D ++ s'.tokens := by rw [ht]; simp
      cases hq : q with
      | nil =>
        have hfin := h'.final
        rw [ht, hq] at hfin
        refine .done hfin ?_ ⟨h'.rest.started, h'.rest.keys, h'.rest.nested, h'.rest.nul, h'.rest.has, h'.rest.closed, h'.rest.col⟩ rfl h'.stale
        obtain ⟨A0, B, x, m, u, r, h1, _, _, _, _, hx, _⟩ := hfin.parts
        have := congrArg List.getLast? h1
        simp at this
        rw [this, hx]
      | cons y ys =>
        rw [← hq]
        refine .ended ⟨by simp [h'.parsed], by simp [hq], h'.stale, ?_, ⟨h'.rest.started, h'.rest.keys, h'.rest.nested, h'.rest.nul, h'.rest.has, h'.rest.closed, h'.rest.col⟩, h'.here, h'.marks⟩ ?_
        · show Final T (D ++ [t] ++ q); rw [hA]; exact h'.final
        · have hfin := h'.final
          rw [← hA] at hfin
          exact final_last hfin (by simp [hq]) t (by simp)
  cases h with
  | fresh hD h =>
    subst hD
    obtain ⟨n, rfl⟩ : ∃ n, f = n + 1 := ⟨f - 1, by omega⟩
    have hl := h.pos.index
    rw [show fetchMore (n + 1) (n + 1) = (do
      if (← get).tokens.isEmpty then
        fetchNext (n + 1)
        fetchMore (n + 1) n
      else
        act Scanner.stale
        if (← get).headPending then
          fetchNext (n + 1)
          fetchMore (n + 1) n
        else pure ()) from rfl]
    rw [pw_bind, pw_get, if_pos (by rw [h.eq]; rfl), pw_bind]
    refine sm_fetchFirst hb h fun s' i' k1 k2 => ?_
    exact sm_fetchMore hb k1 (by omega) (by omega) (fun s'' i'' j1 _ j3 j4 => hR s'' i'' j1 j3 j4)
      (fun s'' i'' j1 _ => hE s'' i'' j1)
  | running h =>
    have hl := h.base.pos.index
    exact sm_fetchMore hb h (by omega) (by omega) (fun s'' i'' j1 _ j3 j4 => hR s'' i'' j1 j3 j4)
      (fun s'' i'' j1 _ => hE s'' i'' j1)
  | ended h =>
    exact ended_stop h (by omega) fun s' j1 _ _ => hE s' _ j1

theorem nextToken_reported {f : Nat} (hb : BadOk e) (h : Next T e D s i) (hf : T.length + 2 < f) :
    pw (nextToken f) (fun t s' i' => After T e D s' i' t) Fail.reported s i :=
  pw_mono (sm_nextToken hb h hf) (fun _ _ _ h => h) fun _ h => h.1

end LibYaml
