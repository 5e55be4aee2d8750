import Verif.Proofs.LexDet
import Verif.Proofs.LexRun

/-!
# The scanner reads what the rules allow

If the rules of the layout allow one more lexeme, the scanner finds it and does not fail.
-/

namespace LibYaml

open Spec

variable {T : List Nat} {S : Token} {D : List Token} {ls ls' : List Lx} {m m' : Mark} {s s0 s1 s' : Scanner} {x : Lx} {cs cs' mid : Text} {d : TokData} {i : In}
  {line kd key : Bool} {lv : Nat} {u : Text}

local notation "safe" m:max Q:max s:max i:max => pw m Q (PointedErr T none) s i

/-- What is safe and succeeds on the text does not fail. -/
theorem pw_sure {σ α : Type} {p : StateT σ Prog α} {Q : α → σ → In → Prop} {s : σ} (hb : i.bad = none) (h : safe p Q s i)
    (hy : ∃ a s' cs', Yields p s i.cs a s' cs') : pw p (fun a s' i' => Q a s' i' ∧ Yields p s i.cs a s' i'.cs) (fun _ => False) s i := by
  have h' := pw_yields h
  unfold pw at h' ⊢
  obtain ⟨a, s', cs', hy⟩ := hy
  cases hr : (p s).run i with
  | ok r => rw [hr] at h'; exact h'
  | error er =>
    have := go_of_run (p s) i hb (by
      intro h0
      unfold pw at h
      rw [h0] at h
      exact h.1)
    rw [show (p s).go i.cs = _ from hy, hr] at this
    cases this

/-! ### Keys -/

theorem lost_free (hk : KeyKept ls s.flowLevel m d key) (he : endsPending d key = true) :
    ∀ pre l post, Pending ls s.flowLevel pre l post → ¬ Required pre l := by
  intro pre l post hp hr
  have h0 : s.flowLevel = 0 := hp.level.symm.trans hr.1
  rw [h0] at hp hk
  have := (hk pre l post hp hr).2 (.inl rfl)
  rw [he] at this
  cases this

theorem Poised.top (h : Poised T S D ls m s) : ∃ k ks, s.keys = k :: ks ∧ ks.length = s.flowLevel ∧ KeyFit ls m s.flowLevel k := by
  have hl := h.levels
  have hk := h.keys
  cases hs : s.keys with
  | nil => rw [hs] at hl; simp at hl
  | cons k ks =>
    rw [hs] at hl hk
    have hl : ks.length = s.flowLevel := by simpa using hl
    exact ⟨k, ks, rfl, hl, hl ▸ hk.1⟩

theorem Poised.removeKey_can (h : Poised T S D ls m s) (hs0 : s0.keys = s.keys) (hn : ∀ pre l post, Pending ls s.flowLevel pre l post → ¬ Required pre l) :
    ∃ s1, s0.removeKey = .ok s1 := by
  obtain ⟨k, ks, hk, _, hf⟩ := h.top
  unfold Scanner.removeKey
  rw [hs0, hk]
  simp only
  rw [if_neg]
  · exact ⟨_, rfl⟩
  · intro hp
    simp only [Bool.and_eq_true] at hp
    unfold KeyFit at hf
    rw [if_pos hp.1] at hf
    obtain ⟨pre, l, post, h1, _, _, h4⟩ := hf
    exact hn pre l post h1 (h4.mp hp.2)

theorem Poised.saveKey_can (h : Poised T S D ls m s) (hn : s.allowed = true → ∀ pre l post, Pending ls s.flowLevel pre l post → ¬ Required pre l) :
    ∃ s1, s.saveKey = .ok s1 := by
  unfold Scanner.saveKey
  split
  · rename_i ha
    obtain ⟨s1, h1⟩ := h.removeKey_can rfl (hn ha)
    obtain ⟨k, ks, _, _, rfl⟩ := removeKey_free h1
    rw [h1]
    exact ⟨_, rfl⟩
  · exact ⟨_, rfl⟩

theorem startBlock_can {data : TokData} {problem : String} (ha : s.flowLevel = 0 → s.allowed = true) (hc : s.mark.column ≤ maxInt) :
    ∃ s1, startBlock data problem s = .ok s1 := by
  unfold startBlock
  split
  · rename_i h0
    rw [if_pos (ha h0)]
    unfold Scanner.rollIndent
    rw [if_neg (by omega)]
    split
    · rw [if_neg (by omega)]
      exact ⟨_, rfl⟩
    · exact ⟨_, rfl⟩
  · exact ⟨_, rfl⟩

theorem Poised.unroll_can (h : Poised T S D ls m s) : ∃ s1, Scanner.unrollIndent (-1) { s with mark := m' } = .ok s1 := by
  unfold Scanner.unrollIndent
  split
  · exact ⟨_, rfl⟩
  · simp only [unrollLoop_all h.cols]
    exact ⟨_, rfl⟩

theorem insertKey_can {k : SimpleKey} (h1 : s.tokensParsed ≤ k.tokenNumber) (h2 : k.tokenNumber ≤ s.tokensParsed + s.tokens.length) (hc : k.mark.column ≤ maxInt) :
    ∃ s1, s.insertKey k = .ok s1 := by
  unfold Scanner.insertKey
  cases hi : s.insert k.tokenNumber { data := .key, start := k.mark, stop := k.mark } with
  | error e =>
    unfold Scanner.insert at hi
    rw [if_neg (by omega)] at hi
    cases hi
  | ok s1 =>
    have e1 : s1.tokensParsed = s.tokensParsed ∧ s.tokens.length ≤ s1.tokens.length := by
      unfold Scanner.insert at hi
      rw [if_neg (by omega)] at hi
      cases hi
      simp
      omega
    obtain ⟨s2, h3⟩ : ∃ s2, s1.rollIndent k.mark.column (some k.tokenNumber) .blockMappingStart k.mark = .ok s2 := by
      unfold Scanner.rollIndent
      split
      · exact ⟨_, rfl⟩
      · split
        · rw [if_neg (by omega)]
          simp only
          unfold Scanner.insert
          rw [if_neg (by simp only; omega)]
          exact ⟨_, rfl⟩
        · exact ⟨_, rfl⟩
    simp only [h3]
    exact ⟨_, rfl⟩

/-! ### The kinds -/

theorem indicator_can {n : Nat} {l r : Text} (h : cs = l ++ r) (hl : l.length = n) : ∃ s' cs', Yields (fetchIndicator n d) s cs () s' cs' :=
  ⟨_, r, y_fetchIndicator.mpr ⟨l, h, hl, rfl⟩⟩

theorem column_le (hpos : IsPos T m) : m.column ≤ T.length := by
  obtain ⟨u, v, rfl, rfl, _⟩ := hpos
  have := (List.takeWhile_prefix (fun c => !isBreakChar c) (l := u.reverse)).length_le
  rw [List.length_reverse] at this
  simp only [markOf, lastColumn, List.length_append]
  omega

/-- The scanner reads the lexeme. -/
theorem kind_complete {f : Nat} (h : Poised T S D ls m s) (hm : s.mark = m) (hpos : IsPos T m) (hT : T.length ≤ maxInt) (hlv : s.flowLevel < maxInt)
    (hkeys : ∀ k ∈ s.keys, k.possible = true → s.tokensParsed ≤ k.tokenNumber ∧ k.tokenNumber ≤ s.tokensParsed + s.tokens.length ∧ k.mark.column ≤ maxInt)
    (hz : 0 ∈ cs) (hf : cs.length < f) (hx : Lexeme (s.flowLevel != 0) s.indent m.column cs d mid cs' line)
    (hmk : Marked ls s.flowLevel m d ls' kd) (hk : KeyKept ls s.flowLevel m d s.allowed) (hn : s.flowLevel = 0 → needsFree d kd = true → s.allowed = true) :
    ∃ s' cs'', Yields (fetchKind f (kindOf d)) s cs () s' cs'' := by
  have hcol : s.mark.column ≤ maxInt := by rw [hm]; exact Nat.le_trans (column_le hpos) hT
  have hrm : ∀ {s0 : Scanner}, s0.keys = s.keys → opensKey d = false → d ≠ .value → ∃ s1, s0.removeKey = .ok s1 := by
    intro s0 h0 ho hv
    exact h.removeKey_can h0 (lost_free hk (by unfold endsPending; rw [if_neg (by simp [ho])]; simpa using hv))
  have hsv : opensKey d = true → ∃ s1, s.saveKey = .ok s1 := by
    intro ho
    exact h.saveKey_can fun ha => lost_free hk (by unfold endsPending; rw [if_pos ho]; exact ha)
  have hre : opensKey d = false → d ≠ .value → ∀ m', ∃ s1, Yields resetAll { s with mark := m' } cs () s1 cs ∧ s1.mark = m' := by
    intro ho hv m'
    obtain ⟨s1, h1⟩ := h.unroll_can (m' := m')
    have e1 : s1.keys = s.keys ∧ s1.mark = m' := by
      unfold Scanner.unrollIndent at h1
      split at h1
      · cases h1; exact ⟨rfl, rfl⟩
      · simp only [unrollLoop_all h.cols] at h1
        cases h1; exact ⟨rfl, rfl⟩
    obtain ⟨s2, h2⟩ := hrm e1.1 ho hv
    obtain ⟨k, ks, _, _, rfl⟩ := removeKey_free h2
    refine ⟨{ s1 with keys := { k with possible := false } :: ks, allowed := false }, ?_, e1.2⟩
    unfold resetAll
    simp only [y_bind, y_act]
    exact ⟨(), s1, cs, ⟨h1, rfl⟩, (), _, cs, ⟨h2, rfl⟩, rfl, rfl⟩
  have hre' : opensKey d = false → d ≠ .value → ∃ s1, Yields resetAll s cs () s1 cs ∧ s1.mark = m := by
    intro ho hv
    obtain ⟨s1, h1, h2⟩ := hre ho hv s.mark
    exact ⟨s1, h1, h2.trans hm⟩
  -- a token of a lexical function behind `saveKey`
  have hlex : opensKey d = true → ∃ s1, s.saveKey = .ok s1 ∧ s1.mark = m ∧ s1.flowLevel = s.flowLevel ∧ s1.indent = s.indent := by
    intro ho
    obtain ⟨s1, h1⟩ := hsv ho
    exact ⟨s1, h1, (saveKey_mark h1).trans hm, saveKey_level h1, saveKey_indent h1⟩
  cases hx with
  | streamEnd r =>
    obtain ⟨s1, h1, _⟩ := hre rfl (by simp) (forceLine s.mark)
    simp only [kindOf, fetchKind, fetchStreamEnd, y_bind, y_act, Scanner.enqueue, Except.ok.injEq]
    exact ⟨_, _, (), _, _, ⟨rfl, rfl⟩, (), s1, _, h1, rfl, rfl⟩
  | version hc hv =>
    obtain ⟨s1, h1, h2⟩ := hre' rfl (by simp)
    obtain ⟨a, b, m1, h3, _⟩ := scanDirective_version (f := f) (m := s1.mark) (q := 0x25) (by simp at hf; omega) hv
    simp only [kindOf, fetchKind, fetchDirective, y_bind, y_act, y_lex, Scanner.enqueue, Except.ok.injEq]
    exact ⟨_, _, (), s1, _, h1, _, _, _, ⟨m1, h3, rfl⟩, rfl, rfl⟩
  | tagDirective hc hv =>
    obtain ⟨s1, h1, h2⟩ := hre' rfl (by simp)
    obtain ⟨a, b, m1, h3, _⟩ := scanDirective_tag (f := f) (m := s1.mark) (q := 0x25) (by simp at hf; omega) hv
    simp only [kindOf, fetchKind, fetchDirective, y_bind, y_act, y_lex, Scanner.enqueue, Except.ok.injEq]
    exact ⟨_, _, (), s1, _, h1, _, _, _, ⟨m1, h3, rfl⟩, rfl, rfl⟩
  | documentStart d r hc hw =>
    obtain ⟨s1, h1, h2⟩ := hre' rfl (by simp)
    obtain ⟨s2, cs2, h3⟩ := indicator_can (s := s1) (d := .documentStart) (n := 3) (l := [0x2D, 0x2D, 0x2D]) (r := d :: r) rfl rfl
    simp only [kindOf, fetchKind, fetchDocumentIndicator, y_bind]
    exact ⟨_, _, (), s1, _, h1, h3⟩
  | documentEnd d r hc hw =>
    obtain ⟨s1, h1, h2⟩ := hre' rfl (by simp)
    obtain ⟨s2, cs2, h3⟩ := indicator_can (s := s1) (d := .documentEnd) (n := 3) (l := [0x2E, 0x2E, 0x2E]) (r := d :: r) rfl rfl
    simp only [kindOf, fetchKind, fetchDocumentIndicator, y_bind]
    exact ⟨_, _, (), s1, _, h1, h3⟩
  | flowSequenceStart =>
    obtain ⟨s1, h1, _, h2, _⟩ := hlex rfl
    simp only [kindOf, fetchKind, fetchFlowStart, y_bind, y_act, Scanner.allow, Scanner.increaseFlow, Except.ok.injEq]
    obtain ⟨s2, cs2, h3⟩ := indicator_can (s := { s1 with keys := {} :: s1.keys, flowLevel := s1.flowLevel + 1, allowed := true })
      (d := .flowSequenceStart) (n := 1) (l := [0x5B]) (r := cs') rfl rfl
    exact ⟨_, _, (), s1, _, ⟨h1, rfl⟩, (), _, _, ⟨if_neg (by omega), rfl⟩, (), _, _, ⟨rfl, rfl⟩, h3⟩
  | flowMappingStart =>
    obtain ⟨s1, h1, _, h2, _⟩ := hlex rfl
    simp only [kindOf, fetchKind, fetchFlowStart, y_bind, y_act, Scanner.allow, Scanner.increaseFlow, Except.ok.injEq]
    obtain ⟨s2, cs2, h3⟩ := indicator_can (s := { s1 with keys := {} :: s1.keys, flowLevel := s1.flowLevel + 1, allowed := true })
      (d := .flowMappingStart) (n := 1) (l := [0x7B]) (r := cs') rfl rfl
    exact ⟨_, _, (), s1, _, ⟨h1, rfl⟩, (), _, _, ⟨if_neg (by omega), rfl⟩, (), _, _, ⟨rfl, rfl⟩, h3⟩
  | flowSequenceEnd =>
    obtain ⟨s1, h1⟩ := hrm (s0 := s) rfl rfl (by simp)
    obtain ⟨k, ks, hks, _, e1⟩ := removeKey_free h1
    obtain ⟨s2, h2⟩ : ∃ s2, s1.decreaseFlow = .ok s2 := by
      unfold Scanner.decreaseFlow
      rw [e1]
      dsimp only
      split
      · exact ⟨_, rfl⟩
      · exact ⟨_, rfl⟩
    obtain ⟨s3, cs3, h3⟩ := indicator_can (s := { s2 with allowed := false }) (d := .flowSequenceEnd) (n := 1) (l := [0x5D]) (r := cs') rfl rfl
    simp only [kindOf, fetchKind, fetchFlowEnd, y_bind, y_act, Scanner.allow, Except.ok.injEq]
    exact ⟨_, _, (), s1, _, ⟨h1, rfl⟩, (), s2, _, ⟨h2, rfl⟩, (), _, _, ⟨rfl, rfl⟩, h3⟩
  | flowMappingEnd =>
    obtain ⟨s1, h1⟩ := hrm (s0 := s) rfl rfl (by simp)
    obtain ⟨k, ks, hks, _, e1⟩ := removeKey_free h1
    obtain ⟨s2, h2⟩ : ∃ s2, s1.decreaseFlow = .ok s2 := by
      unfold Scanner.decreaseFlow
      rw [e1]
      dsimp only
      split
      · exact ⟨_, rfl⟩
      · exact ⟨_, rfl⟩
    obtain ⟨s3, cs3, h3⟩ := indicator_can (s := { s2 with allowed := false }) (d := .flowMappingEnd) (n := 1) (l := [0x7D]) (r := cs') rfl rfl
    simp only [kindOf, fetchKind, fetchFlowEnd, y_bind, y_act, Scanner.allow, Except.ok.injEq]
    exact ⟨_, _, (), s1, _, ⟨h1, rfl⟩, (), s2, _, ⟨h2, rfl⟩, (), _, _, ⟨rfl, rfl⟩, h3⟩
  | flowEntry =>
    obtain ⟨s1, h1⟩ := hrm (s0 := s) rfl rfl (by simp)
    obtain ⟨s3, cs3, h3⟩ := indicator_can (s := { s1 with allowed := true }) (d := .flowEntry) (n := 1) (l := [0x2C]) (r := cs') rfl rfl
    simp only [kindOf, fetchKind, fetchFlowEntry, y_bind, y_act, Scanner.allow, Except.ok.injEq]
    exact ⟨_, _, (), s1, _, ⟨h1, rfl⟩, (), _, _, ⟨rfl, rfl⟩, h3⟩
  | blockEntry _ hw =>
    obtain ⟨s0, h0⟩ := startBlock_can (data := .blockSequenceStart) (problem := "block sequence entries are not allowed in this context")
      (fun h0 => hn h0 rfl) hcol
    have e0 := (startBlock_ok (x := ⟨.blockEntry, m, m.steps 1, s.flowLevel, s.allowed, false⟩) h hm h0 rfl rfl
      (fun h0 => by unfold Lx.begins; rw [if_pos h0]) rfl (by simp)).2.2.2
    obtain ⟨s1, h1⟩ := hrm (s0 := s0) (by rw [e0]) rfl (by simp)
    obtain ⟨s3, cs3, h3⟩ := indicator_can (s := { s1 with allowed := true }) (d := .blockEntry) (n := 1) (l := [0x2D]) (r := cs') rfl rfl
    simp only [kindOf, fetchKind, fetchBlockEntry, y_bind, y_act, Scanner.allow, Except.ok.injEq]
    exact ⟨_, _, (), s0, _, ⟨h0, rfl⟩, (), s1, _, ⟨h1, rfl⟩, (), _, _, ⟨rfl, rfl⟩, h3⟩
  | key _ hw =>
    obtain ⟨s0, h0⟩ := startBlock_can (data := .blockMappingStart) (problem := "mapping keys are not allowed in this context")
      (fun h0 => hn h0 rfl) hcol
    have e0 := (startBlock_ok (x := ⟨.key, m, m.steps 1, s.flowLevel, s.allowed, false⟩) h hm h0 rfl rfl
      (fun h0 => by unfold Lx.begins; rw [if_pos h0]) rfl (by simp)).2.2.2
    obtain ⟨s1, h1⟩ := hrm (s0 := s0) (by rw [e0]) rfl (by simp)
    obtain ⟨s3, cs3, h3⟩ := indicator_can (s := { s1 with allowed := s1.flowLevel == 0 }) (d := .key) (n := 1) (l := [0x3F]) (r := cs') rfl rfl
    simp only [kindOf, fetchKind, fetchKey, y_bind, y_act, Scanner.allow, Except.ok.injEq]
    exact ⟨_, _, (), s0, _, ⟨h0, rfl⟩, (), s1, _, ⟨h1, rfl⟩, (), _, _, ⟨rfl, rfl⟩, h3⟩
  | value _ hw =>
    obtain ⟨k, ks, hks, hlen, hfit⟩ := h.top
    obtain ⟨s1, h1⟩ : ∃ s1, valueKey s = .ok s1 := by
      unfold valueKey
      rw [hks]
      dsimp only
      split
      · rename_i hp
        obtain ⟨a, b, c⟩ := hkeys k (by rw [hks]; simp) hp
        exact insertKey_can a b c
      · rename_i hp
        have hkd : kd = false := by
          cases hmk with
          | other h => rfl
          | explicit => rfl
          | implicit _ hpd hr =>
            unfold KeyFit at hfit
            rw [if_neg hp] at hfit
            exact absurd hr ((hfit _ _ _ hpd).1 m .refl)
        subst hkd
        obtain ⟨s0, h0⟩ := startBlock_can (data := .blockMappingStart) (problem := "mapping values are not allowed in this context")
          (fun h0 => hn h0 rfl) hcol
        rw [h0]
        exact ⟨_, rfl⟩
    obtain ⟨s3, cs3, h3⟩ := indicator_can (s := s1) (d := .value) (n := 1) (l := [0x3A]) (r := cs') rfl rfl
    simp only [kindOf, fetchKind, fetchValue, y_bind, y_act]
    exact ⟨_, _, (), s1, _, ⟨h1, rfl⟩, h3⟩
  | anchor hv =>
    obtain ⟨s1, h1, _⟩ := hlex rfl
    obtain ⟨a, b, m1, h3⟩ := (scanAnchor_iff (f := f) (m := s1.mark) (q := 0x26) (anchor := true) (by simp at hf; omega)).mpr ⟨_, hv, rfl⟩
    simp only [kindOf, fetchKind, fetchAnchor, y_bind, y_act, y_lex, Scanner.enqueue, Scanner.allow, Except.ok.injEq]
    exact ⟨_, _, (), s1, _, ⟨h1, rfl⟩, (), _, _, ⟨rfl, rfl⟩, _, _, _, ⟨m1, h3, rfl⟩, rfl, rfl⟩
  | alias hv =>
    obtain ⟨s1, h1, _⟩ := hlex rfl
    obtain ⟨a, b, m1, h3⟩ := (scanAnchor_iff (f := f) (m := s1.mark) (q := 0x2A) (anchor := false) (by simp at hf; omega)).mpr ⟨_, hv, rfl⟩
    simp only [kindOf, fetchKind, fetchAnchor, y_bind, y_act, y_lex, Scanner.enqueue, Scanner.allow, Except.ok.injEq]
    exact ⟨_, _, (), s1, _, ⟨h1, rfl⟩, (), _, _, ⟨rfl, rfl⟩, _, _, _, ⟨m1, h3, rfl⟩, rfl, rfl⟩
  | tag hv =>
    obtain ⟨s1, h1, _, h2, _⟩ := hlex rfl
    obtain ⟨a, b, m1, h3⟩ := (scanTag_iff (f := f) (m := s1.mark) (flow := s.flowLevel != 0) (by simpa using hz) (by simpa using hf)).mpr ⟨_, _, hv, rfl⟩
    simp only [kindOf, fetchKind, fetchTag, y_bind, y_act, y_lex, y_get, Scanner.enqueue, Scanner.allow, Except.ok.injEq]
    exact ⟨_, _, (), s1, _, ⟨h1, rfl⟩, (), _, _, ⟨rfl, rfl⟩, _, _, _, ⟨rfl, rfl, rfl⟩, _, _, _, ⟨m1, by dsimp only; rw [h2]; exact h3, rfl⟩, rfl, rfl⟩
  | literal hfl hv =>
    obtain ⟨s1, h1⟩ := hrm (s0 := s) rfl rfl (by simp)
    obtain ⟨_, _, _, _, e1⟩ := removeKey_free h1
    obtain ⟨a, b, m1, h3⟩ := scanBlockScalar_complete (f := f) (m := s1.mark) (q := 0x7C) (by simp at hf; omega) hv
    simp only [kindOf, fetchKind, fetchBlockScalar, y_bind, y_act, y_lex, y_get, Scanner.enqueue, Scanner.allow, Except.ok.injEq]
    exact ⟨_, _, (), s1, _, ⟨h1, rfl⟩, (), _, _, ⟨rfl, rfl⟩, _, _, _, ⟨rfl, rfl, rfl⟩, _, _, _, ⟨m1, by
      dsimp only; rw [show s1.indent = s.indent by rw [e1]]; exact h3, rfl⟩, rfl, rfl⟩
  | folded hfl hv =>
    obtain ⟨s1, h1⟩ := hrm (s0 := s) rfl rfl (by simp)
    obtain ⟨_, _, _, _, e1⟩ := removeKey_free h1
    obtain ⟨a, b, m1, h3⟩ := scanBlockScalar_complete (f := f) (m := s1.mark) (q := 0x3E) (by simp at hf; omega) hv
    simp only [kindOf, fetchKind, fetchBlockScalar, y_bind, y_act, y_lex, y_get, Scanner.enqueue, Scanner.allow, Except.ok.injEq]
    exact ⟨_, _, (), s1, _, ⟨h1, rfl⟩, (), _, _, ⟨rfl, rfl⟩, _, _, _, ⟨rfl, rfl, rfl⟩, _, _, _, ⟨m1, by
      dsimp only; rw [show s1.indent = s.indent by rw [e1]]; exact h3, rfl⟩, rfl, rfl⟩
  | single hv =>
    obtain ⟨s1, h1, h2, _⟩ := hlex rfl
    obtain ⟨a, b, m1, h3⟩ := (scanFlowScalar_iff (f := f) (m := s1.mark) (q := 0x27) (single := true) (by simpa using hz) (by simp at hf; omega)).mpr
      ⟨_, by rw [h2]; exact hv, rfl⟩
    simp only [kindOf, fetchKind, fetchFlowScalar, y_bind, y_act, y_lex, Scanner.enqueue, Scanner.allow, Except.ok.injEq]
    exact ⟨_, _, (), s1, _, ⟨h1, rfl⟩, (), _, _, ⟨rfl, rfl⟩, _, _, _, ⟨m1, h3, rfl⟩, rfl, rfl⟩
  | double hv =>
    obtain ⟨s1, h1, h2, _⟩ := hlex rfl
    obtain ⟨a, b, m1, h3⟩ := (scanFlowScalar_iff (f := f) (m := s1.mark) (q := 0x22) (single := false) (by simpa using hz) (by simp at hf; omega)).mpr
      ⟨_, by rw [h2]; exact hv, rfl⟩
    simp only [kindOf, fetchKind, fetchFlowScalar, y_bind, y_act, y_lex, Scanner.enqueue, Scanner.allow, Except.ok.injEq]
    exact ⟨_, _, (), s1, _, ⟨h1, rfl⟩, (), _, _, ⟨rfl, rfl⟩, _, _, _, ⟨m1, h3, rfl⟩, rfl, rfl⟩
  | plain hp hd hv ht =>
    obtain ⟨s1, h1, h2, h4, h5⟩ := hlex rfl
    obtain ⟨a, b, m1, h3⟩ := (scanPlainScalar_iff (f := f) (m := s1.mark) (parent := s1.indent) (flow := s1.flowLevel != 0) hz hf (by rw [h2]; exact hd)
      (plainFirst_noComment hp)).mpr ⟨_, by rw [h2, h4, h5]; exact hv, rfl⟩
    simp only [kindOf, fetchKind, fetchPlainScalar, y_bind, y_act, y_lex, y_get, Scanner.enqueue, Scanner.allow, Except.ok.injEq]
    exact ⟨_, _, (), s1, _, ⟨h1, rfl⟩, (), _, _, ⟨rfl, rfl⟩, _, _, _, ⟨rfl, rfl, rfl⟩, _, _, _, ⟨m1, h3, rfl⟩, (), _, _, ⟨rfl, rfl⟩, rfl, rfl⟩

/-! ### The next token -/

theorem OnLevels.mem {P : Nat → SimpleKey → Prop} {ks : List SimpleKey} (h : OnLevels P ks) {k : SimpleKey} (hk : k ∈ ks) : ∃ v, P v k := by
  induction ks with
  | nil => cases hk
  | cons k' ks ih =>
    rcases List.mem_cons.mp hk with rfl | hk
    · exact ⟨_, h.1⟩
    · exact ih h.2 hk

theorem staleKeys_can {ks : List SimpleKey} (h : ∀ k ∈ ks, k.stale m = true → k.required = false) : ∃ ks', staleKeys m ks = .ok ks' := by
  induction ks with
  | nil => exact ⟨_, rfl⟩
  | cons k ks ih =>
    obtain ⟨ks', h'⟩ := ih fun k hk => h k (by simp [hk])
    unfold staleKeys
    rw [h']
    dsimp only
    split
    · rename_i hs
      rw [h k (by simp) hs]
      exact ⟨_, rfl⟩
    · exact ⟨_, rfl⟩

theorem stale_can (h : ∀ k ∈ s.keys, k.stale s.mark = true → k.required = false) : ∃ s', s.stale = .ok s' := by
  obtain ⟨ks, hk⟩ := staleKeys_can h
  unfold Scanner.stale
  rw [hk]
  exact ⟨_, rfl⟩

/-- If required keys are kept at `m`, no required key is stale there. -/
theorem kept_fresh {m0 : Mark} (hf : OnLevels (KeyFit ls m0) s.keys) (hk : KeyKept ls lv m d key) :
    ∀ k ∈ s.keys, k.stale m = true → k.required = false := by
  intro k hmem hs
  cases hr : k.required with
  | false => rfl
  | true =>
    obtain ⟨v, hv⟩ := hf.mem hmem
    have hp : k.possible = true := by
      simp only [SimpleKey.stale, Bool.and_eq_true] at hs
      exact hs.1
    unfold KeyFit at hv
    rw [if_pos hp] at hv
    obtain ⟨pre, l, post, h1, h2, _, h4⟩ := hv
    have hreq := h4.mp hr
    have h0 : v = 0 := h1.level.symm.trans hreq.1
    subst h0
    obtain ⟨a, b⟩ := (hk pre l post h1 hreq).1
    simp only [SimpleKey.stale, hp, Bool.true_and, Bool.or_eq_true, decide_eq_true_eq] at hs
    rw [h2] at hs
    omega

theorem Spec.Lexed.level_le (h : Lexed T ls u lv key) : lv ≤ u.length := by
  induction h with
  | start => exact Nat.le_refl _
  | @next ls u lv key w v x mid rest key' kd line ls' d h hno hT hf hl hx hm hk hn ih =>
    simp only [List.length_append]
    generalize ht : v ++ rest = t at hl
    have hlen := congrArg List.length ht
    rw [List.length_append] at hlen
    cases hl <;> simp only [levelAfter, List.length_cons] at hlen ⊢ <;> omega

/-- What `fetchNext` leaves at the end of the stream. -/
def EndsWell (D : List Token) (s : Scanner) : Prop := ∀ t, (D ++ s.tokens).getLast? = some t → t.data = .streamEnd → NoneRequired s

theorem stepped_ends (h : Stepped T S D ls m s cs s' cs') (hz : 0 ∈ cs) {cs1 : Text}
    (hx : Lexeme (s.flowLevel != 0) s.indent m.column cs d mid cs1 line) (hk : KeyKept ls s.flowLevel m d key) : EndsWell D s' := by
  obtain ⟨d', line', kd, ls', stop, mid', h1, h2, h3, h4, h5, h6, h7, h8⟩ := h
  obtain ⟨rfl, _⟩ := lexeme_unique hz hx h1
  intro t ht hd k hmem hp
  have hd' : d = .streamEnd := by
    rw [h8.toks, List.append_nil] at ht
    rw [List.getLast?_cons, layout_append, List.getLast?_append] at ht
    simp [layout, Lx.body, Lx.token] at ht
    rw [← ht] at hd
    exact hd
  subst hd'
  cases h2 with
  | implicit h => cases h
  | explicit h => cases h
  | other =>
  cases hr : k.required with
  | false => rfl
  | true =>
    obtain ⟨v, hv⟩ := h8.keys.mem hmem
    unfold KeyFit at hv
    rw [if_pos hp] at hv
    obtain ⟨pre, l, post, g1, _, _, g4⟩ := hv
    have hreq := g4.mp hr
    have h0 : v = 0 := g1.level.symm.trans hreq.1
    subst h0
    by_cases hfl : s.flowLevel = 0
    · exact absurd g1 (pending_ended hfl rfl)
    · obtain ⟨post', _, g1'⟩ := (pending_inner (x := ⟨.streamEnd, m, stop, s.flowLevel, s.allowed, false⟩) (Nat.pos_of_ne_zero hfl)).mp g1
      have := (hk pre l post' g1' hreq).2 (.inr rfl)
      cases this

theorem flow_eq (n : Nat) : decide (n ≠ 0) = (n != 0) := by
  by_cases h : n = 0 <;> simp [h]

/-- If the rules allow one more lexeme, `fetchNext` does not fail. -/
theorem sure_fetchNext {f : Nat} {us : Text} {lv' : Nat} {key' : Bool} (h : Running T none D s i) (hL : Lexed T ls u s.flowLevel s.allowed) (hT : T = u ++ i.cs)
    (hfit : Fit T S D ls s.mark [] (openBlocks [] ls) s) (hstep : LexStep T ls u s.flowLevel s.allowed ls' us lv' key') (hlen : T.length < maxInt)
    (hf : i.cs.length < f) : pw (fetchNext f) (fun _ s' _ => EndsWell D s') (fun _ => False) s i := by
  have hb : BadOk none := by intro er h; cases h
  obtain ⟨u0, hu1, hu2, _⟩ := h.base.pos.path
  obtain rfl := List.append_cancel_right (hu1.symm.trans hT)
  have hz0 : 0 ∈ i.cs := List.mem_of_getLast? (h.base.pos.ends rfl)
  cases hstep with
  | @mk w v x mid rest a kd line ls2 d hT' hfill hlex hx hm hk hn =>
  have hcs : i.cs = w ++ (v ++ rest) := List.append_cancel_left (hT.symm.trans hT')
  rw [← hcs] at hfill
  have hz : 0 ∈ v ++ rest := hfill.nul hz0
  unfold fetchNext
  rw [pw_bind]
  refine pw_mono (pw_sure h.base.pos.bad (Q := fun _ s' i' => s' = s ∧ At T none s.mark i' ∧ i'.cs = i.cs) (pw_lexAt h.base.pos.spot (safe_cache hb h.base.pos (by decide)
    fun i1 h1 c1 _ => ⟨rfl, h1, c1⟩)) ⟨(), s, i.cs, y_lex.mpr ⟨_, y_cache1.mpr ⟨rfl, rfl⟩, rfl⟩⟩) ?_ (fun _ h => h)
  rintro _ s1 i1 ⟨⟨e1, h1, c1⟩, _⟩
  obtain rfl : s = s1 := e1.symm
  rw [pw_bind, pw_get]
  rw [if_pos h.base.started]
  rw [pw_bind]
  obtain ⟨m2', hsc⟩ := filler_complete (m := s.mark) (f := f) (n := f) hfill (by rw [hu2]; rfl) hf hf
  rw [flow_eq] at hsc
  have r1 := h.advance h1 (by rw [c1]; exact Nat.le_refl _)
  refine pw_mono (pw_sure h1.bad (Q := fun _ s' i' => ∃ m', s' = { s with mark := m' } ∧ At T none m' i' ∧ i'.cs.length ≤ i1.cs.length ∧
    ∀ c r, i'.cs = c :: r → isBreak c = false) (pw_lexAt r1.base.pos.spot (safe_scanToNext hb r1.base.pos (by rw [c1]; exact hf) (by rw [c1]; exact hf)
    fun a m2 i2 h2 l2 _ hbr => ⟨m2, rfl, h2, l2, hbr⟩)) ⟨a, _, _, y_lex.mpr ⟨m2', by rw [c1]; exact hsc, rfl⟩⟩) ?_ (fun _ h => h)
  rintro a2 _ i2 ⟨⟨m2, rfl, h2, l2, hbr⟩, y2⟩
  obtain ⟨m3, y2, e3⟩ := y_lex.mp y2
  rw [c1] at y2
  obtain ⟨rfl, rfl, hc2⟩ := y_det y2 hsc
  have e3 : m2 = m3 := congrArg Scanner.mark e3
  subst e3
  rw [c1] at l2
  have hm2 : m2 = markOf (u0 ++ w) := by
    obtain ⟨w0, hw, hm2, _⟩ := h2.path
    rw [hm2, show w0 = u0 ++ w from List.append_cancel_right (hw.symm.trans (by rw [hc2, hT']; simp))]
  have hflow : ∀ n : Nat, decide (n ≠ 0) = (n != 0) := flow_eq
  have r2 := h.advance h2 l2
  rw [pw_bind]
  refine pw_act_ok rfl ?_
  have r3 := r2.allow (b := a2)
  rw [pw_bind]
  have hkf := kept_fresh (s := s) hfit.keys hk
  rw [← hm2] at hkf
  refine pw_act (fun s4 hs4 => ?_) (fun er her => by
    obtain ⟨s4, h4⟩ := stale_can (s := { s with mark := m2, allowed := a2 }) hkf
    rw [h4] at her
    cases her)
  have hfit2 : Fit T S D ls s.mark [] (openBlocks [] ls) { s with mark := m2, allowed := a2 } :=
    ⟨hfit.toks, hfit.cols, hfit.levels, hfit.parsed, hfit.keys, hfit.place, hfit.order, hfit.frees, hfit.unkeyed⟩
  have e4 : s4 = { s with mark := m2, allowed := a2, keys := s.keys.map (LibYaml.dropStale m2) } := by
    unfold Scanner.stale at hs4
    cases hr : staleKeys m2 s.keys with
    | error er => simp only [hr] at hs4; cases hs4
    | ok ks =>
      simp only [hr] at hs4
      cases hs4
      rw [(staleKeys_ok hr).1]
  obtain ⟨f4, _, fr⟩ := hfit2.stale (beyond_of h.base.pos h2 l2) hs4
  have r4 : Running T none D s4 i2 := by rw [e4]; exact r3.dropStale
  have fresh : ∀ k ∈ s4.keys, k.possible = true → m2.line ≤ k.mark.line ∧ m2.index ≤ k.mark.index + 1024 :=
    fun k hk hp => stale_false (fr k hk hp) hp
  have em : s4.mark = m2 := by rw [e4]
  have ea : s4.allowed = a2 := by rw [e4]
  have ef : s4.flowLevel = s.flowLevel := by rw [e4]
  rw [pw_bind]
  obtain ⟨s5', hs5'⟩ : ∃ s5, s4.unrollIndent s4.mark.column = .ok s5 := by
    unfold Scanner.unrollIndent
    split
    · exact ⟨_, rfl⟩
    · obtain ⟨ind, inds, hi, _⟩ := unrollLoop_cols (col := s4.mark.column) (mark := s4.mark) (q := s4.tokens) f4.cols
      rw [hi]
      exact ⟨_, rfl⟩
  refine pw_mono (pw_sure (p := act fun s => s.unrollIndent s.mark.column) h2.bad (Q := fun _ s' i' => Prepared T none D s' i2 ∧ i' = i2)
    (sm_unrollIndent r4 (by omega) (fun hf0 => ⟨⟨r4, by rw [em]; exact fresh, fun h0 => absurd h0 hf0⟩, rfl⟩) ?_) ⟨(), s5', _, y_act.mpr ⟨hs5', rfl⟩⟩) ?_
    (fun _ h => h)
  · intro pre ind inds hf0 p1 p2 p3 p4
    exact ⟨⟨r4.unroll p1 p4, by rw [em]; exact fresh, fun _ => p3⟩, rfl⟩
  rintro _ s5 i5 ⟨⟨hp, rfl⟩, y5⟩
  obtain ⟨f5, e5⟩ := f4.unroll (l := ⟨.key, m2, m2, s4.flowLevel, false, false⟩) (y_act.mp y5).1 rfl em.symm
  have em5 : s5.mark = m2 := by rw [e5]; exact em
  have ea5 : s5.allowed = a2 := by rw [e5]; exact ea
  have ef5 : s5.flowLevel = s.flowLevel := by rw [e5]; exact ef
  have ek5 : s5.keys = s4.keys := by rw [e5]
  have hready : Poised T S D ls m2 s5 := by
    unfold Poised
    rw [show s5.flowLevel = s4.flowLevel from by rw [e5]]
    exact f5
  rw [pw_bind]
  refine pw_mono (pw_sure hp.run.base.pos.bad (Q := fun _ s' i' => s' = s5 ∧ At T none s5.mark i' ∧ i'.cs = i5.cs ∧ Has 4 i') (pw_lexAt hp.run.base.pos.spot (safe_cache hb hp.run.base.pos
    (by decide) fun i1 h1 c1 hh => ⟨rfl, h1, c1, hh⟩)) ⟨(), s5, i5.cs, y_lex.mpr ⟨_, y_cache4.mpr ⟨rfl, rfl⟩, rfl⟩⟩) ?_ (fun _ h => h)
  rintro _ s5 i3 ⟨⟨e5b, h3, c3, hh3⟩, _⟩
  obtain rfl := e5b.symm
  have hp' : Prepared T none D s5 i3 := by
    refine ⟨?_, hp.fresh, hp.margin⟩
    have := hp.run.advance h3 (by rw [c3]; exact Nat.le_refl _)
    exact this
  -- the lexeme
  have hx5 : Lexeme (s5.flowLevel != 0) s5.indent m2.column i3.cs d mid rest line := by
    rw [c3, hc2, ef5, ← flow_eq, indent_eq hready.cols]
    unfold Lx.within
    rw [ef5, hm2]
    exact hlex
  obtain ⟨hkind, hu⟩ := lexeme_kind hx5
  rw [pw_bind]
  have hz3 : 0 ∈ i3.cs := by rw [c3, hc2]; exact hz
  refine pw_mono (pw_sure (T := T) h3.bad (Q := fun k s' i' => KindOk (s.flowLevel != 0) s5.mark i3.cs k ∧ s' = s5 ∧ i' = i3) (pw_lex (pw_dispatch h3 hh3
    (by rw [c3]; exact hbr) fun kind hk => ⟨hk, rfl, rfl⟩)) ⟨_, s5, _, y_lex.mpr ⟨_, dispatch_complete hz3 (by rw [em5, ← ef5]; exact hkind) hu, rfl⟩⟩) ?_
    (fun _ h => h)
  rintro kind s6 i6 ⟨⟨hko, e6, e6'⟩, y6⟩
  obtain rfl : s5 = s6 := e6.symm
  obtain rfl : i3 = i6 := e6'.symm
  obtain ⟨m6, y6, _⟩ := y_lex.mp y6
  obtain ⟨rfl, _, _⟩ := y_det y6 (dispatch_complete hz3 (by rw [em5, ← ef5]; exact hkind) hu)
  have hpos := h2.onPath
  have hfl : i3.cs.length < f := by rw [c3]; omega
  have hkc := kind_complete (f := f) hready em5 hpos (Nat.le_of_lt hlen) (by
      rw [ef5]
      have := hL.level_le
      rw [hT] at hlen
      simp at hlen
      omega) (fun k hk hpo => by
        have := hp'.run.base.keys k hk hpo
        refine ⟨by rw [hp'.run.base.parsed]; exact this.lo, ?_, Nat.le_trans (column_le this.path) (Nat.le_of_lt hlen)⟩
        rw [hp'.run.base.parsed]
        rcases this.tok with ⟨t, ht, _⟩ | ⟨ht, _⟩
        · have := (List.getElem?_eq_some_iff.mp ht).1
          simp at this; omega
        · simp at ht; omega) hz3 hfl hx5 (by rw [ef5, hm2]; exact hm) (by rw [ef5, hm2, ea5]; exact hk) (by rw [ef5, ea5]; exact hn)
  refine pw_mono (pw_sure h3.bad (sm_fetchKind (Q := fun _ s' i' => (Running T none D s' i' ∧ i'.cs.length < i3.cs.length) ∨
    (kindOf d = .streamEnd ∧ ScanEnded T D s' i' ∧ i' = i3)) hb hp' hh3 (by rw [ef5]; exact hko) (by rw [c3]; omega)
    (fun s'' i'' k1 k2 => .inl ⟨k1, k2⟩) (fun s'' k0 k1 => .inr ⟨k0, k1, rfl⟩)) ⟨(), hkc⟩) ?_ (fun _ h => h)
  rintro _ s7 i7 ⟨hres, y7⟩
  have hB : Beyond m2 s7.mark := by
    rcases hres with ⟨k1, k2⟩ | ⟨k0, _, _⟩
    · exact beyond_of (i := i3) (by rw [em5] at h3; exact h3) k1.base.pos (Nat.le_of_lt k2)
    · rw [k0] at y7
      rw [streamEnd_mark hready em5 y7]
      unfold nextLine Beyond
      split
      · exact ⟨Nat.le_refl _, Nat.le_refl _⟩
      · exact ⟨Nat.le_refl _, Nat.le_succ _⟩
  have hI : s7.mark.index + i7.cs.length = m2.index + i3.cs.length := by
    have hT0 := h2.index
    rcases hres with ⟨k1, k2⟩ | ⟨k0, k1, rfl⟩
    · have := k1.base.pos.index
      rw [c3]
      omega
    · rw [k0] at y7
      rw [streamEnd_mark hready em5 y7]
      unfold nextLine
      split <;> rfl
  have hst := kind_sound hready em5 hpos (by rw [ek5]; exact fr) hfl hkind y7 hB hI
  exact stepped_ends hst hz3 hx5 (by rw [ef5, hm2]; exact hk)

/-! ### Calls -/

theorem pw_and {σ α : Type} {p : StateT σ Prog α} {Q Q' : α → σ → In → Prop} {E E' : Fail → Prop} {s : σ} (h : pw p Q E s i) (h' : pw p Q' E' s i) :
    pw p (fun a s' i' => Q a s' i' ∧ Q' a s' i') (fun er => E er ∧ E' er) s i := by
  unfold pw at *
  cases hr : (p s).run i with
  | ok r => rw [hr] at h h'; exact ⟨h, h'⟩
  | error er => rw [hr] at h h'; exact ⟨h, h'⟩

/-- The text has a sequence of lexemes up to its end. -/
def Ending (T : List Nat) : Prop := ∃ ls u lv key, Lexed T ls u lv key ∧ ∃ x ∈ ls, x.data = .streamEnd

theorem key_stale_mono {k : SimpleKey} {m m' : Mark} (hB : Beyond m m') (h : k.stale m = true) : k.stale m' = true := by
  unfold Beyond at hB
  simp only [SimpleKey.stale, Bool.and_eq_true, Bool.or_eq_true, decide_eq_true_eq] at h ⊢
  exact ⟨h.1, by omega⟩

/-- A required key that is too old now would be too old at the next lexeme. -/
theorem LexStep.now {us : Text} {lv' : Nat} {key' : Bool} (h : Running T none D s i) (hT : T = u ++ i.cs)
    (hfit : Fit T S D ls s.mark [] (openBlocks [] ls) s) (hstep : LexStep T ls u s.flowLevel s.allowed ls' us lv' key') :
    ∀ k ∈ s.keys, k.stale s.mark = true → k.required = false := by
  obtain ⟨u0, hu1, hu2, hcut⟩ := h.base.pos.path
  obtain rfl := List.append_cancel_right (hu1.symm.trans hT)
  cases hstep with
  | @mk w v x mid rest a kd line ls2 d hT' hfill hlex hx hm hk hn =>
  have hcs : i.cs = w ++ (v ++ rest) := List.append_cancel_left (hT.symm.trans hT')
  have hB : Beyond s.mark (markOf (u0 ++ w)) := by
    rw [hu2]
    refine ⟨by simp [markOf], ?_⟩
    have hn : NoCut u0 w := by
      rintro ⟨a, b⟩
      refine hcut ⟨a, ?_⟩
      cases w with
      | nil => cases b
      | cons z zs => rw [hcs]; simpa using b
    simp only [markOf, lineBreaks_append u0 w hn]
    omega
  intro k hmem hst
  exact kept_fresh hfit.keys hk k hmem (key_stale_mono hB hst)

theorem lexInv_no_end (h : Running T none D s i) (hfit : Fit T S D ls s.mark [] (openBlocks [] ls) s) : ∀ x ∈ ls, x.data ≠ .streamEnd := by
  intro x hx hd
  refine running_no_end (s := s) h.base.toks x.token ?_ hd
  rw [hfit.toks, List.append_nil]
  exact List.mem_cons_of_mem _ (mem_layout hx)

theorem ended_required (h : ScanEnded T D s i) (he : EndsWell D s) : NoneRequired s := by
  obtain ⟨A0, B, x, m, u, r, h1, _, _, _, _, hx, _⟩ := h.final.parts
  refine he x ?_ (by rw [hx])
  rw [h1]
  simp

theorem none_stale (h : NoneRequired s) (er : Fail) (hs : s.stale = .error er) : False := by
  obtain ⟨s', hs'⟩ := stale_can (s := s) fun k hk hst => h k hk (by
    simp only [SimpleKey.stale, Bool.and_eq_true] at hst
    exact hst.1)
  rw [hs'] at hs
  cases hs

theorem sure_fetchMore {f n : Nat} (h : Running T none D s i) (hx : LexInv T D s i) (hend : Ending T) (hlen : T.length < maxInt) (hf : i.cs.length < f)
    (hn : i.cs.length + 1 < n) : pw (fetchMore f n) (fun _ _ _ => True) (fun _ => False) s i := by
  have hb : BadOk none := by intro er h; cases h
  obtain ⟨lsF, uF, lvF, keyF, hF, hFe⟩ := hend
  have hz : 0 ∈ T := by
    obtain ⟨u, hu, _⟩ := h.base.pos.path
    rw [hu]
    exact List.mem_append_right _ (List.mem_of_getLast? (h.base.pos.ends rfl))
  induction n generalizing s i with
  | zero => omega
  | succ n ih =>
    have hstep : ∀ s, Running T none D s i → LexInv T D s i → pw (do fetchNext f; fetchMore f n) (fun _ _ _ => True) (fun _ => False) s i := by
      intro s h hx
      rw [pw_bind]
      have h2 := lex_fetchNext (Q := fun _ s' i' => (Running T none D s' i' ∧ LexInv T D s' i' ∧ i'.cs.length < i.cs.length) ∨ ScanEnded T D s' i') hb h hx hf
        (fun s' i' k1 kx k2 => .inl ⟨k1, kx, k2⟩) (fun s' i' k1 kx => .inr k1)
      obtain ⟨S, ls, u, hS, hL, hT, hfit⟩ := hx
      obtain ⟨ls', v, lv', key', hst⟩ := hL.ahead hz (lexInv_no_end h hfit) hF hFe
      refine pw_mono (pw_and (sure_fetchNext h hL hT hfit hst hlen hf) h2) ?_ (fun er hh => hh.1)
      rintro _ s' i' ⟨he, ⟨k1, kx, k2⟩ | k1⟩
      · exact ih k1 kx (by omega) (by omega)
      · exact ended_stop' k1 (by omega) (fun _ _ _ _ _ _ => trivial) (none_stale (ended_required k1 he))
    unfold fetchMore
    rw [pw_bind, pw_get]
    refine pw_ite (fun _ => hstep s h hx) (fun hne => ?_)
    rw [pw_bind]
    have hst : ∀ er, s.stale = .error er → False := by
      obtain ⟨S, ls, u, hS, hL, hT, hfit⟩ := hx
      obtain ⟨ls', v, lv', key', hst⟩ := hL.ahead hz (lexInv_no_end h hfit) hF hFe
      intro er her
      obtain ⟨s', hs'⟩ := stale_can (s := s) (hst.now h hT hfit)
      rw [hs'] at her
      cases her
    refine pw_act (fun s4 hs4 => ?_) hst
    have hx' := hx.stale hs4
    have h' := h.dropStale
    have e4 : s4 = { s with keys := s.keys.map (LibYaml.dropStale s.mark) } := by
      unfold Scanner.stale at hs4
      cases hr : staleKeys s.mark s.keys with
      | error er => rw [hr] at hs4; cases hs4
      | ok ks =>
        rw [hr] at hs4
        cases hs4
        rw [(staleKeys_ok hr).1]
    rw [← e4] at h'
    rw [pw_bind, pw_get]
    exact pw_ite (fun _ => hstep _ h' hx') (fun _ => trivial)

/-- If the text has lexemes up to its end, no call fails. -/
theorem sure_nextToken {f : Nat} (h : LexNext T none D s i) (hend : Ending T) (hlen : T.length < maxInt) (hf : T.length + 2 < f) :
    pw (nextToken f) (fun _ _ _ => True) (fun _ => False) s i := by
  have hb : BadOk none := by intro er h; cases h
  have h1 := lex_nextToken hb h hf
  have h2 : pw (fetchMore f f) (fun _ _ _ => True) (fun _ => False) s i := by
    cases h with
    | fresh hD h =>
      subst hD
      obtain ⟨n, rfl⟩ : ∃ n, f = n + 1 := ⟨f - 1, by omega⟩
      have hl := h.pos.index
      rw [show fetchMore (n + 1) (n + 1) = (do
        if (← get).tokens.isEmpty then
          fetchNext (n + 1)
          fetchMore (n + 1) n
        else
          act Scanner.stale
          if (← get).headPending then
            fetchNext (n + 1)
            fetchMore (n + 1) n
          else pure ()) from rfl]
      rw [pw_bind, pw_get, if_pos (by rw [h.eq]; rfl), pw_bind]
      refine pw_mono (pw_sure h.pos.bad (lex_fetchFirst (Q := fun _ s' i' => Running T none [] s' i' ∧ LexInv T [] s' i' ∧ i'.cs.length ≤ i.cs.length) hb h
        fun s' i' k1 kx _ k2 => ⟨k1, kx, k2⟩) ?_) ?_ (fun _ h => h)
      · obtain ⟨s', hs'⟩ : ∃ s', (fetchStreamStart s : Prog _).go i.cs = .ok (((), s'), i.cs) := ⟨_, rfl⟩
        refine ⟨(), s', i.cs, ?_⟩
        simp only [fetchNext, y_bind, y_lex, y_cache1, y_get]
        refine ⟨(), _, _, ⟨_, ⟨rfl, rfl⟩, rfl⟩, _, _, _, ⟨rfl, rfl, rfl⟩, ?_⟩
        rw [if_neg (by rw [h.eq]; simp)]
        exact hs'
      · rintro _ s' i' ⟨⟨k1, kx, k2⟩, _⟩
        exact sure_fetchMore k1 kx hend hlen (by omega) (by omega)
    | running h hx =>
      have hl := h.base.pos.index
      exact sure_fetchMore h hx hend hlen (by omega) (by omega)
    | ended h hx hn => exact ended_stop' h (by omega) (fun _ _ _ _ _ _ => trivial) (none_stale hn)
  unfold nextToken at h1 ⊢
  rw [pw_bind] at h1 ⊢
  refine pw_mono (pw_and h1 h2) ?_ (fun er hh => hh.2)
  rintro _ s' i' ⟨g, _⟩
  unfold pw at g ⊢
  cases ht : s'.tokens with
  | nil => simp only [ht, Prog.run] at g; exact g.1.elim
  | cons t q => simp only [ht, Prog.run]

/-- No call on the whole input fails. -/
theorem sure_calls {o : Oracle} (ho : NoFail o) {f : Nat} {enc : Option Enc} {bytes : List UInt8} {good : List Nat}
    (hsize : bytes.length < maxFileSize) (hs : Split (chosen enc bytes).1 (chosen enc bytes).2 good []) (hf : bytes.length + 3 < f)
    (hend : Ending (good ++ [0])) (hlen : good.length + 1 < maxInt) (k : Nat) : (scanRun o f (scanStart enc bytes) k).2.error = none := by
  induction k with
  | zero => rfl
  | succ k ih =>
    show (scanCall (onReader o) f (scanRun o f (scanStart enc bytes) k).2).2.error = none
    have hcalls := lex_calls (o := o) hsize hs hf k
    generalize scanRun o f (scanStart enc bytes) k = r at ih hcalls
    unfold scanCall
    cases hcalls with
    | ended D j hout hd herr whole =>
      rw [hd, Bool.true_or, if_pos rfl]
      exact herr
    | failed D j er hout hd herr start => rw [herr] at ih; cases ih
    | going D i hout hd herr next rel bad =>
      rw [if_neg (by rw [hd, herr]; simp)]
      have hsure := sure_nextToken (f := f) next hend (by simp [inputOf]; omega) (by have := inputOf_length hs; omega)
      unfold pw at hsure
      have hub : (nextToken f r.2.scanner).run i ≠ .error .ub := by
        intro hu; rw [hu] at hsure; exact hsure
      rcases runR_refines o (nextToken f r.2.scanner) r.2.input i rel hub with
        ⟨er, h1, ⟨h2, _⟩ | h2⟩ | ⟨er, h1, h2⟩ | ⟨⟨t, s'⟩, i', st', h1, h2, h3⟩
      · exact absurd ho h2
      · rw [bad] at h2; cases h2
      · rw [h1] at hsure; exact hsure.elim
      · have h2' : onReader o (nextToken f) r.2.scanner r.2.input = .ok ((t, s'), st') := h2
        rw [h2']
        exact herr

/-! ### More calls -/

theorem scanRun_length {o : Oracle} {f : Nat} {st : ScanSt RS} (k : Nat) : (scanRun o f st k).1.length = k := by
  induction k with
  | zero => rfl
  | succ k ih => simp [scanRun, ih]

theorem scanRun_take {o : Oracle} {f : Nat} {st : ScanSt RS} {k n : Nat} (h : k ≤ n) : (scanRun o f st k).1 = (scanRun o f st n).1.take k := by
  induction n with
  | zero =>
    obtain rfl : k = 0 := by omega
    rfl
  | succ n ih =>
    by_cases hk : k = n + 1
    · subst hk
      exact (List.take_of_length_le (Nat.le_of_eq (scanRun_length _))).symm
    · rw [ih (by omega)]
      show _ = List.take k ((scanRun o f st n).1 ++ [_])
      rw [List.take_append_of_le_length (by rw [scanRun_length]; omega)]

/-- The first token names the encoding of the input. -/
theorem scan_first {o : Oracle} {n : Nat} {en : Enc} {r : RS} :
    onReader o (nextToken (n + 2)) { enc := en } r =
      match cacheR o r 1 with
      | .error er => .error er
      | .ok r => .ok ((⟨.streamStart en, {}, {}⟩, { enc := en, indent := -1, keys := [{}], allowed := true, startProduced := true, tokensParsed := 1 }), r) := by
  rfl

end LibYaml
