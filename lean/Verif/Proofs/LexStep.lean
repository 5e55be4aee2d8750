import Verif.Proofs.LayoutFit
import Verif.Proofs.LexKinds
import Verif.Proofs.PlainStop

/-!
# One lexeme

Producing a token of the kind that the dispatch found reads one lexeme and adds it to the layout.
-/

namespace LibYaml

open Spec

variable {T : List Nat} {S : Token} {D : List Token} {ls : List Lx} {m m' : Mark} {s s0 s1 s' : Scanner} {x : Lx} {cs cs' : Text} {d : TokData}

/-- In front of a lexeme at `m`: what ends there is closed. -/
def Poised (T : List Nat) (S : Token) (D : List Token) (ls : List Lx) (m : Mark) (s : Scanner) : Prop :=
  Fit T S D ls m (Lx.closing ⟨.key, m, m, s.flowLevel, false, false⟩ (openBlocks [] ls))
    (Lx.within ⟨.key, m, m, s.flowLevel, false, false⟩ (openBlocks [] ls)) s

theorem Poised.fit (h : Poised T S D ls m s) (hl : x.level = s.flowLevel) (hp : x.pos = m) :
    Fit T S D ls m (x.closing (openBlocks [] ls)) (x.within (openBlocks [] ls)) s := by
  unfold Poised Lx.closing Lx.within at *
  rw [hl, hp]
  exact h

/-- The token of the lexeme `d` of the text `cs` at `m` ends where `mid` begins. -/
def StopsAt (d : TokData) (m : Mark) (cs mid : Text) (stop : Mark) : Prop :=
  if d = .streamEnd then stop = nextLine m else stop.index + mid.length = m.index + cs.length

theorem stopsAt_mid {mid : Text} {stop : Mark} (hd : d ≠ .streamEnd) (h : stop.index + mid.length = m.index + cs.length) : StopsAt d m cs mid stop := by
  unfold StopsAt
  rw [if_neg hd]
  exact h

theorem stopsAt_mark {stop : Mark} (hd : d ≠ .streamEnd) (hi : m'.index + cs'.length = m.index + cs.length) (h : stop = m') : StopsAt d m cs cs' stop :=
  stopsAt_mid hd (h ▸ hi)

theorem plainFirst_char {flow : Bool} (h : PlainFirst flow cs) : PlainChar flow cs := by
  obtain ⟨c, r, rfl, ⟨hw, hc⟩ | ⟨hc, d, r', rfl, hd⟩⟩ := h
  · refine ⟨c, r, rfl, hw, fun _ hf => hc ?_, fun e => absurd ?_ hc⟩
    · simp [FlowMark] at hf ⊢; omega
    · simp [e]
  · refine ⟨c, _, rfl, ?_, fun hf => ?_, fun e => ⟨d, r', rfl, hd, fun hf => ?_⟩⟩
    · rcases hc with rfl | ⟨_, rfl | rfl⟩ <;> simp [White, Blank, Brk]
    · rcases hc with rfl | ⟨rfl, _⟩
      · simp [FlowMark]
      · cases hf
    · subst e
      rcases hc with hc | ⟨rfl, _⟩
      · cases hc
      · cases hf

/-- A lexeme has been read. -/
def Stepped (T : List Nat) (S : Token) (D : List Token) (ls : List Lx) (m : Mark) (s : Scanner) (cs : Text) (s' : Scanner) (cs' : Text) : Prop :=
  ∃ d line kd ls' stop mid, Lexeme (s.flowLevel != 0) s.indent m.column cs d mid cs' line ∧ Marked ls s.flowLevel m d ls' kd ∧
    (endsPending d s.allowed = true → ∀ pre l post, Pending ls s.flowLevel pre l post → ¬ Required pre l) ∧
    (s.flowLevel = 0 → needsFree d kd = true → s.allowed = true) ∧ StopsAt d m cs mid stop ∧ s'.flowLevel = levelAfter s.flowLevel d ∧
    s'.allowed = freeAfter (s.flowLevel != 0) d kd line ∧
    Fit T S D (ls' ++ [⟨d, m, stop, s.flowLevel, s.allowed, kd⟩]) s'.mark []
      (openBlocks [] (ls' ++ [⟨d, m, stop, s.flowLevel, s.allowed, kd⟩])) s'

theorem body_simple (hb : x.begins = none) (he : endsBlocks x.data = false) (hk : x.keyed = false) {cols : List Nat} :
    x.body cols = [x.token] ∧ x.leaves cols = cols := by
  unfold Lx.body Lx.leaves
  rw [opening_none hb]
  simp [he, hk]

/-! ### Lexemes with which a key may start -/

theorem saveStep {line : Bool} {t : Token} (h : Poised T S D ls m s) (hm : s.mark = m) (hpos : IsPos T m) (hB : Beyond m s'.mark) (hs : s.saveKey = .ok s1)
    {mid : Text} (hx : Lexeme (s.flowLevel != 0) s.indent m.column cs d mid cs' line) (ho : opensKey d = true) (hst : StopsAt d m cs mid t.stop) (ht : t.data = d)
    (hts : t.start = m) (htk : s'.tokens = s1.tokens ++ [t]) (hi : s'.indent = s1.indent) (his : s'.indents = s1.indents)
    (hp : s'.tokensParsed = s1.tokensParsed) (hf : s'.allowed = freeAfter (s.flowLevel != 0) d false line)
    (hk : (s'.keys = s1.keys ∧ s'.flowLevel = s1.flowLevel ∧ levelAfter s.flowLevel d = s.flowLevel) ∨
      (s'.keys = {} :: s1.keys ∧ s'.flowLevel = s1.flowLevel + 1 ∧ levelAfter s.flowLevel d = s.flowLevel + 1)) :
    Stepped T S D ls m s cs s' cs' := by
  have hv : d ≠ .value := by rintro rfl; cases ho
  have he := (opensKey_ends ho).1
  have hfit := h.fit (x := ⟨d, m, t.stop, s.flowLevel, s.allowed, false⟩) rfl rfl
  obtain ⟨k1, k2, k3, k4⟩ := hfit.saveKey hs rfl hm.symm rfl ho
  obtain ⟨ks, rfl⟩ : ∃ ks, s1 = { s with keys := ks } := ⟨_, k2⟩
  have hb := body_simple (x := ⟨d, m, t.stop, s.flowLevel, s.allowed, false⟩) (begins_unkeyed ho rfl) he rfl
    (cols := Lx.within ⟨d, m, t.stop, s.flowLevel, s.allowed, false⟩ (openBlocks [] ls))
  have hend : d ≠ .streamEnd := by rintro rfl; cases ho
  refine ⟨d, line, false, ls, t.stop, mid, hx, .other hv, ?_, ?_, hst, ?_, hf, ?_⟩
  · intro hp
    unfold endsPending at hp
    rw [if_pos ho] at hp
    exact k4 hp
  · intro _ hn
    cases d <;> simp_all [opensKey, needsFree]
  · rcases hk with ⟨_, h2, h3⟩ | ⟨_, h2, h3⟩
    · rw [h2, h3]
    · rw [h2, h3]
  · refine hfit.push hpos rfl hB ?_ ?_ ?_ hp ?_ rfl
    · rw [htk, hb.1]
      obtain ⟨td, ts, tp⟩ := t
      dsimp only at ht hts
      subst ht hts
      simp [Lx.token, Lx.start, hend]
    · rw [hi, his, hb.2]
      exact hfit.cols
    · rcases hk with ⟨h1, h2, _⟩ | ⟨h1, h2, _⟩
      · rw [h1, h2, k3]; exact h.levels
      · rw [h1, h2, List.length_cons, k3, h.levels]
    · rcases hk with ⟨h1, _, _⟩ | ⟨h1, _, _⟩
      · rw [h1]; exact k1
      · rw [h1]
        refine ⟨keyFit_none rfl fun _ _ _ => pending_outer ?_, k1⟩
        show s.flowLevel < ks.length
        have := h.levels
        simp only at k3
        omega

/-! ### Lexemes that end pending keys -/

theorem Poised.removeKey (h : Poised T S D ls m s) (hs0 : s0.keys = s.keys) (hs : s0.removeKey = .ok s1) (hl : x.level = s.flowLevel) (hp : x.pos = m)
    (hx : opensKey x.data = false) :
    OnLevels (KeyFit (ls ++ [x]) m) s1.keys ∧ s1 = { s0 with keys := s1.keys } ∧ s1.keys.length = s.keys.length ∧
      ∀ pre l post, Pending ls s.flowLevel pre l post → ¬ Required pre l := by
  obtain ⟨k, ks, hk, hr, rfl⟩ := removeKey_free hs
  have hk' : s.removeKey = .ok { s with keys := { k with possible := false } :: ks } := by
    unfold Scanner.removeKey
    rw [← hs0, hk]
    simp [hr]
  obtain ⟨k1, _, k3, k4⟩ := (h.fit hl hp).removeKey hk' hl hx
  exact ⟨k1, rfl, k3, k4⟩

theorem removeStep {line : Bool} {stop : Mark} (h : Poised T S D ls m s) (hpos : IsPos T m) (hB : Beyond m s'.mark) (hs0 : s0.keys = s.keys)
    (hs : s0.removeKey = .ok s1) {mid : Text} (hx : Lexeme (s.flowLevel != 0) s.indent m.column cs d mid cs' line) (ho : opensKey d = false) (hv : d ≠ .value)
    (hn : s.flowLevel = 0 → needsFree d false = true → s.allowed = true) (hst : StopsAt d m cs mid stop)
    (htk : s'.tokens = s.tokens ++ Lx.body ⟨d, m, stop, s.flowLevel, s.allowed, false⟩ (Lx.within ⟨d, m, stop, s.flowLevel, s.allowed, false⟩ (openBlocks [] ls)))
    (hc : s'.indent :: s'.indents =
      (Lx.leaves ⟨d, m, stop, s.flowLevel, s.allowed, false⟩ (Lx.within ⟨d, m, stop, s.flowLevel, s.allowed, false⟩ (openBlocks [] ls))).map Int.ofNat ++ [-1])
    (hp : s'.tokensParsed = s.tokensParsed) (hf : s'.allowed = freeAfter (s.flowLevel != 0) d false line)
    (hk : (s'.keys = s1.keys ∧ s'.flowLevel = s.flowLevel ∧ levelAfter s.flowLevel d = s.flowLevel) ∨
      (s1.keys ≠ [] ∧ s'.keys = s1.keys.tail ∧ s.flowLevel = s'.flowLevel + 1 ∧ levelAfter s.flowLevel d = s'.flowLevel)) : Stepped T S D ls m s cs s' cs' := by
  have hfit := h.fit (x := ⟨d, m, stop, s.flowLevel, s.allowed, false⟩) rfl rfl
  obtain ⟨k1, k2, k3, k4⟩ := h.removeKey (x := ⟨d, m, stop, s.flowLevel, s.allowed, false⟩) hs0 hs rfl rfl ho
  refine ⟨d, line, false, ls, stop, mid, hx, .other hv, fun _ => k4, hn, hst, ?_, hf, ?_⟩
  · rcases hk with ⟨_, h2, h3⟩ | ⟨_, _, h2, h3⟩
    · rw [h2, h3]
    · rw [h3]
  · refine hfit.push hpos rfl hB htk hc ?_ hp ?_ rfl
    · rcases hk with ⟨h1, h2, _⟩ | ⟨h0, h1, h2, _⟩
      · rw [h1, h2, k3]; exact h.levels
      · rw [h1, List.length_tail, k3, h.levels]; omega
    · rcases hk with ⟨h1, _, _⟩ | ⟨h0, h1, _, _⟩
      · rw [h1]; exact k1
      · rw [h1]
        cases hks : s1.keys with
        | nil => exact absurd hks h0
        | cons k ks =>
          rw [hks] at k1
          exact k1.2

/-- `-` and `?`, and `:` without an implicit key. -/
theorem startBlock_ok {data : TokData} {problem : String} (h : Poised T S D ls m s) (hm : s.mark = m) (hs : startBlock data problem s = .ok s0)
    (hl : x.level = s.flowLevel) (hp : x.pos = m) (hb : x.level = 0 → x.begins = some data) (he : endsBlocks x.data = false)
    (hk : x.keyed = true → x.data = .value) :
    (s.flowLevel = 0 → s.allowed = true) ∧ s0.tokens ++ [x.token] = s.tokens ++ x.body (x.within (openBlocks [] ls)) ∧
      s0.indent :: s0.indents = (x.leaves (x.within (openBlocks [] ls))).map Int.ofNat ++ [-1] ∧
      s0 = { s with tokens := s0.tokens, indent := s0.indent, indents := s0.indents } := by
  subst hm
  have hfit := h.fit hl hp
  have hi := indent_eq hfit.cols
  have hkd : (x.keyed = true ∧ x.data ≠ .value) = False := by
    simp only [eq_iff_iff, iff_false, not_and, ne_eq, Classical.not_not]
    exact hk
  unfold startBlock at hs
  unfold Lx.body Lx.leaves Lx.opening
  simp only [he, Bool.false_eq_true, false_and, if_false, List.nil_append, hkd, List.append_nil]
  by_cases h0 : s.flowLevel = 0
  · rw [if_pos h0] at hs
    by_cases ha : s.allowed = true
    · rw [if_pos ha] at hs
      refine ⟨fun _ => ha, ?_⟩
      unfold Scanner.rollIndent at hs
      rw [if_neg (by omega)] at hs
      rw [hb (by omega), hp, ← hi]
      by_cases hlt : s.indent < s.mark.column
      · rw [if_pos hlt] at hs
        split at hs
        · cases hs
        · cases hs
          refine ⟨by simp [hlt], ?_, rfl⟩
          simp only [hlt, if_true, Option.isSome_some, List.map_cons, List.cons_append]
          rw [← hfit.cols]
          rfl
      · rw [if_neg hlt] at hs
        cases hs
        refine ⟨by simp [hlt], ?_, rfl⟩
        simp only [hlt, if_false, Option.isSome_none, Bool.false_eq_true]
        exact hfit.cols
    · rw [if_neg ha] at hs
      cases hs
  · rw [if_neg h0] at hs
    cases hs
    refine ⟨fun h => absurd h h0, ?_, ?_, rfl⟩
    · rw [begins_level (by omega)]
      simp
    · rw [begins_level (by omega)]
      simp only [ite_self, Option.isSome_none, Bool.false_eq_true, if_false]
      exact hfit.cols

/-- What ends all block collections. -/
theorem resetAll_ok (h : Poised T S D ls m s) (hs : Scanner.unrollIndent (-1) { s with mark := m' } = .ok s0) (hl : x.level = s.flowLevel) (hp : x.pos = m)
    (hst : x.start = m') (he : endsBlocks x.data = true) (hk : x.keyed = false) (hb : x.begins = none) :
    s0.tokens ++ [x.token] = s.tokens ++ x.body (x.within (openBlocks [] ls)) ∧
      s0.indent :: s0.indents = (x.leaves (x.within (openBlocks [] ls))).map Int.ofNat ++ [-1] ∧
      s0 = { s with mark := m', tokens := s0.tokens, indent := s0.indent, indents := s0.indents } := by
  have hfit := h.fit hl hp
  unfold Scanner.unrollIndent at hs
  unfold Lx.body Lx.leaves
  rw [opening_none hb, hst]
  simp only [he, hl, hk, Bool.false_eq_true, false_and, if_false, true_and, Option.toList_none, List.map_nil, List.append_nil, Option.isSome_none]
  by_cases h0 : s.flowLevel = 0
  · rw [if_neg (by simp [h0])] at hs
    rw [if_pos h0, if_pos h0]
    simp only [unrollLoop_all hfit.cols] at hs
    cases hs
    exact ⟨by simp, rfl, rfl⟩
  · rw [if_pos (by simpa using h0)] at hs
    cases hs
    rw [if_neg h0, if_neg h0]
    exact ⟨by simp, hfit.cols, rfl⟩

/-! ### The kinds -/

theorem insert_mark {n : Nat} {t : Token} (h : s.insert n t = .ok s1) : s1.mark = s.mark := by
  unfold Scanner.insert at h
  split at h
  · cases h
  · cases h; rfl

theorem rollIndent_mark {n : Nat} {t : TokData} {c : Nat} (h : s.rollIndent c (some n) t m = .ok s1) : s1.mark = s.mark := by
  unfold Scanner.rollIndent at h
  split at h
  · cases h; rfl
  · split at h
    · split at h
      · cases h
      · exact (insert_mark h).trans rfl
    · cases h; rfl

theorem insertKey_mark {k : SimpleKey} (h : s.insertKey k = .ok s') : s'.mark = s.mark := by
  unfold Scanner.insertKey at h
  cases h1 : s.insert k.tokenNumber { data := .key, start := k.mark, stop := k.mark } with
  | error e => rw [h1] at h; cases h
  | ok s1 =>
    rw [h1] at h
    simp only at h
    cases h2 : s1.rollIndent k.mark.column (some k.tokenNumber) .blockMappingStart k.mark with
    | error e => rw [h2] at h; cases h
    | ok s2 =>
      rw [h2] at h
      cases h
      exact (rollIndent_mark h2).trans (insert_mark h1)

theorem saveKey_eq (h : s.saveKey = .ok s1) : s1 = { s with keys := s1.keys } := by
  unfold Scanner.saveKey at h
  split at h
  · cases hr : s.removeKey with
    | error e => rw [hr] at h; cases h
    | ok s2 =>
      rw [hr] at h
      obtain ⟨k, ks, _, _, rfl⟩ := removeKey_free hr
      cases h
      rfl
  · cases h
    rfl

theorem saveKey_mark (h : s.saveKey = .ok s1) : s1.mark = s.mark := by rw [saveKey_eq h]
theorem saveKey_level (h : s.saveKey = .ok s1) : s1.flowLevel = s.flowLevel := by rw [saveKey_eq h]
theorem saveKey_indent (h : s.saveKey = .ok s1) : s1.indent = s.indent := by rw [saveKey_eq h]

theorem bne_zero {n : Nat} : (n != 0) = false ↔ n = 0 := by simp

/-- What the next lexeme does to the state. -/
theorem kind_sound {f : Nat} {kind : Kind} (h : Poised T S D ls m s) (hm : s.mark = m) (hpos : IsPos T m)
    (hfresh : ∀ k ∈ s.keys, k.possible = true → k.stale m = false) (hf : cs.length < f) (hk : KindIs (s.flowLevel != 0) m.column cs kind)
    (hy : Yields (fetchKind f kind) s cs () s' cs') (hB : Beyond m s'.mark)
    (hI : s'.mark.index + cs'.length = m.index + cs.length) : Stepped T S D ls m s cs s' cs' := by
  have hcols : ∀ y : Lx, y.level = s.flowLevel → y.pos = m → s.indent :: s.indents = (y.within (openBlocks [] ls)).map Int.ofNat ++ [-1] :=
    fun y h1 h2 => (h.fit h1 h2).cols
  cases kind with
  | unknown => cases hy
  | streamEnd =>
    obtain ⟨r, rfl⟩ := hk
    simp only [fetchKind, fetchStreamEnd, resetAll, y_bind, y_act, Scanner.enqueue, Scanner.allow, Except.ok.injEq] at hy
    obtain ⟨_, _, _, ⟨rfl, rfl⟩, _, _, _, ⟨_, s0, _, ⟨hu, rfl⟩, _, s1, _, ⟨hr, rfl⟩, rfl, rfl⟩, rfl, rfl⟩ := hy
    obtain ⟨t1, t2, t3⟩ := resetAll_ok (x := ⟨.streamEnd, m, nextLine m, s.flowLevel, s.allowed, false⟩) h hu rfl rfl (by rw [hm]; rfl) rfl rfl
      (by unfold Lx.begins; split <;> rfl)
    obtain ⟨_, e1, _⟩ := h.removeKey (x := ⟨.streamEnd, m, nextLine m, s.flowLevel, s.allowed, false⟩) (by rw [t3]) hr rfl rfl rfl
    refine removeStep h hpos hB (by rw [t3]) hr (.streamEnd r) rfl (by simp) (by simp [needsFree]) (stop := nextLine m) rfl ?_ ?_ ?_ rfl ?_
    · rw [← t1, e1, t3, hm]
      rfl
    · rw [← t2, e1]
    · rw [e1, t3]
    · left
      exact ⟨rfl, by rw [e1, t3], rfl⟩
  | directive =>
    obtain ⟨hc, r, rfl⟩ := hk
    simp only [fetchKind, fetchDirective, resetAll, y_bind, y_act, y_lex, Scanner.enqueue, Scanner.allow, Except.ok.injEq] at hy
    obtain ⟨_, _, _, ⟨_, s0, _, ⟨hu, rfl⟩, _, s1, _, ⟨hr, rfl⟩, rfl, rfl⟩, t, _, _, ⟨m1, hl, rfl⟩, rfl, rfl⟩ := hy
    obtain ⟨td, ts, tp⟩ := t
    have hts := scanDirective_start hl
    obtain ⟨mid, hsound, hidx⟩ := scanDirective_sound (by simp at hf; omega) hl
    have hd : ∃ line, Lexeme (s.flowLevel != 0) s.indent m.column (0x25 :: r) td mid cs' line ∧ line = false ∧
        ((∃ j k, td = .versionDirective ⟨j, k⟩) ∨ ∃ h p, td = .tagDirective ⟨h, p⟩) := by
      rcases hsound with ⟨j, k, h1, h2⟩ | ⟨h', p, h1, h2⟩
      · exact ⟨false, h2 ▸ .version hc h1, rfl, .inl ⟨j, k, h2⟩⟩
      · exact ⟨false, h2 ▸ .tagDirective hc h1, rfl, .inr ⟨h', p, h2⟩⟩
    obtain ⟨line, hx, rfl, hd⟩ := hd
    have hgen : ∀ y : Lx, y = ⟨td, m, tp, s.flowLevel, s.allowed, false⟩ → y.start = m ∧ endsBlocks y.data = true ∧ y.begins = none ∧
        opensKey y.data = false ∧ y.data ≠ .value ∧ needsFree y.data false = false ∧ y.data ≠ .streamEnd ∧
        levelAfter s.flowLevel td = s.flowLevel ∧ freeAfter (s.flowLevel != 0) td false false = false := by
      rintro _ rfl
      rcases hd with ⟨j, k, rfl⟩ | ⟨h', p, rfl⟩ <;>
        exact ⟨rfl, rfl, by unfold Lx.begins; split <;> rfl, rfl, by simp, rfl, by simp, rfl, rfl⟩
    obtain ⟨g1, g2, g3, g4, g5, g6, g7, g8, g9⟩ := hgen _ rfl
    have hu' : Scanner.unrollIndent (-1) { s with mark := m } = .ok s0 := by rw [← hm]; exact hu
    obtain ⟨t1, t2, t3⟩ := resetAll_ok (x := ⟨td, m, tp, s.flowLevel, s.allowed, false⟩) h hu' rfl rfl g1 g2 rfl g3
    obtain ⟨_, e1, _⟩ := h.removeKey (x := ⟨td, m, tp, s.flowLevel, s.allowed, false⟩) (by rw [t3]) hr rfl rfl g4
    have hsm : s1.mark = m := by rw [e1, t3]
    refine removeStep h hpos hB (by rw [t3]) hr hx g4 g5 (fun _ h => by rw [g6] at h; cases h) (stop := tp) (stopsAt_mid g7 (by rw [← hsm]; exact hidx)) ?_ ?_ ?_ g9.symm ?_
    · rw [← t1]
      simp only [Lx.token, g1]
      rw [e1]
      simp only [List.append_cancel_left_eq, List.cons.injEq, and_true]
      rw [show ts = m by rw [← hsm]; exact hts]
    · rw [← t2, e1]
    · rw [e1, t3]
    · left
      exact ⟨rfl, by rw [e1, t3], g8⟩
  | documentStart =>
    obtain ⟨hc, d, r, hw, rfl⟩ := hk
    simp only [fetchKind, fetchDocumentIndicator, resetAll, y_bind, y_act, y_fetchIndicator, Scanner.allow, Except.ok.injEq] at hy
    obtain ⟨_, _, _, ⟨_, s0, _, ⟨hu, rfl⟩, _, s1, _, ⟨hr, rfl⟩, rfl, rfl⟩, l, e, hl, rfl⟩ := hy
    match l, hl with
    | [a, b, c], _ =>
      cases e
      have hu' : Scanner.unrollIndent (-1) { s with mark := m } = .ok s0 := by rw [← hm]; exact hu
      obtain ⟨t1, t2, t3⟩ := resetAll_ok (x := ⟨.documentStart, m, m.steps 3, s.flowLevel, s.allowed, false⟩) h hu' rfl rfl rfl rfl rfl
        (by unfold Lx.begins; split <;> rfl)
      obtain ⟨_, e1, _⟩ := h.removeKey (x := ⟨.documentStart, m, m.steps 3, s.flowLevel, s.allowed, false⟩) (by rw [t3]) hr rfl rfl rfl
      have hsm : s1.mark = m := by rw [e1, t3]
      refine removeStep h hpos hB (by rw [t3]) hr (.documentStart d r hc hw) rfl (by simp) (by simp [needsFree]) (stop := m.steps 3) ?_ ?_ ?_ ?_ rfl ?_
      · exact stopsAt_mark (by simp) hI (by show m.steps 3 = _; rw [hsm])
      · rw [← t1]
        simp only [hsm]
        rw [e1]
        rfl
      · rw [← t2, e1]
      · rw [e1, t3]
      · left
        exact ⟨rfl, by rw [e1, t3], rfl⟩
  | documentEnd =>
    obtain ⟨hc, d, r, hw, rfl⟩ := hk
    simp only [fetchKind, fetchDocumentIndicator, resetAll, y_bind, y_act, y_fetchIndicator, Scanner.allow, Except.ok.injEq] at hy
    obtain ⟨_, _, _, ⟨_, s0, _, ⟨hu, rfl⟩, _, s1, _, ⟨hr, rfl⟩, rfl, rfl⟩, l, e, hl, rfl⟩ := hy
    match l, hl with
    | [a, b, c], _ =>
      cases e
      have hu' : Scanner.unrollIndent (-1) { s with mark := m } = .ok s0 := by rw [← hm]; exact hu
      obtain ⟨t1, t2, t3⟩ := resetAll_ok (x := ⟨.documentEnd, m, m.steps 3, s.flowLevel, s.allowed, false⟩) h hu' rfl rfl rfl rfl rfl
        (by unfold Lx.begins; split <;> rfl)
      obtain ⟨_, e1, _⟩ := h.removeKey (x := ⟨.documentEnd, m, m.steps 3, s.flowLevel, s.allowed, false⟩) (by rw [t3]) hr rfl rfl rfl
      have hsm : s1.mark = m := by rw [e1, t3]
      refine removeStep h hpos hB (by rw [t3]) hr (.documentEnd d r hc hw) rfl (by simp) (by simp [needsFree]) (stop := m.steps 3) ?_ ?_ ?_ ?_ rfl ?_
      · exact stopsAt_mark (by simp) hI (by show m.steps 3 = _; rw [hsm])
      · rw [← t1]
        simp only [hsm]
        rw [e1]
        rfl
      · rw [← t2, e1]
      · rw [e1, t3]
      · left
        exact ⟨rfl, by rw [e1, t3], rfl⟩
  | flowStart d =>
    simp only [fetchKind, fetchFlowStart, y_bind, y_act, y_fetchIndicator, Scanner.allow, Except.ok.injEq] at hy
    obtain ⟨_, s1, _, ⟨hr, rfl⟩, _, s2, _, ⟨hi, rfl⟩, _, _, cs, ⟨rfl, rfl⟩, l, e, hl, rfl⟩ := hy
    have hs1 : s1.mark = m := by rw [saveKey_mark hr, hm]
    unfold Scanner.increaseFlow at hi
    split at hi
    · cases hi
    · cases hi
      have hd : d ≠ .streamEnd := by rcases hk with ⟨rfl, _⟩ | ⟨rfl, _⟩ <;> simp
      have hx : Lexeme (s.flowLevel != 0) s.indent m.column cs d cs' cs' false := by
        match l, hl with
        | [a], _ =>
          rcases hk with ⟨rfl, r, rfl⟩ | ⟨rfl, r, rfl⟩ <;> cases e
          · exact .flowSequenceStart _
          · exact .flowMappingStart _
      refine saveStep (t := { data := d, start := s1.mark, stop := s1.mark.steps 1 }) h hm hpos hB hr hx ?_ (stopsAt_mark hd hI rfl) rfl hs1 rfl rfl rfl rfl ?_ (.inr ⟨rfl, rfl, ?_⟩) <;>
        rcases hk with ⟨rfl, r, rfl⟩ | ⟨rfl, r, rfl⟩ <;> rfl
  | flowEnd d =>
    simp only [fetchKind, fetchFlowEnd, y_bind, y_act, y_fetchIndicator, Scanner.allow, Except.ok.injEq] at hy
    obtain ⟨_, s1, _, ⟨hr, rfl⟩, _, s2, _, ⟨hi, rfl⟩, _, _, cs, ⟨rfl, rfl⟩, l, e, hl, rfl⟩ := hy
    obtain ⟨k, ks, hks, _, hs1⟩ := removeKey_free hr
    have hs2 : s2 = { s1 with keys := s2.keys, flowLevel := s.flowLevel - 1 } ∧
        ((s2.keys = s1.keys ∧ s.flowLevel = 0) ∨ (s2.keys = s1.keys.tail ∧ s.flowLevel ≠ 0)) := by
      have hfl : s1.flowLevel = s.flowLevel := by rw [hs1]
      unfold Scanner.decreaseFlow at hi
      split at hi
      · rename_i h0
        cases hi
        rw [← hfl, h0]
        exact ⟨by rw [hs1] at h0 ⊢; simpa using h0, .inl ⟨rfl, rfl⟩⟩
      · rename_i l h0
        split at hi
        · cases hi
        · rename_i k' ks' hks'
          cases hi
          rw [← hfl, h0, hks']
          exact ⟨rfl, .inr ⟨rfl, by omega⟩⟩
    obtain ⟨e2, hkeys⟩ := hs2
    have hsm : s2.mark = m := by rw [e2, hs1, hm]
    have hx : Lexeme (s.flowLevel != 0) s.indent m.column cs d cs' cs' false := by
      match l, hl with
      | [a], _ =>
        rcases hk with ⟨rfl, r, rfl⟩ | ⟨rfl, r, rfl⟩ <;> cases e
        · exact .flowSequenceEnd _
        · exact .flowMappingEnd _
    have hd : d = .flowSequenceEnd ∨ d = .flowMappingEnd := by
      rcases hk with ⟨rfl, _⟩ | ⟨rfl, _⟩
      · exact .inl rfl
      · exact .inr rfl
    have hb := body_simple (x := ⟨d, m, m.steps 1, s.flowLevel, s.allowed, false⟩) (by rcases hd with rfl | rfl <;> (unfold Lx.begins; split <;> rfl))
      (by rcases hd with rfl | rfl <;> rfl) rfl (cols := Lx.within ⟨d, m, m.steps 1, s.flowLevel, s.allowed, false⟩ (openBlocks [] ls))
    refine removeStep h hpos hB rfl hr hx (by rcases hd with rfl | rfl <;> rfl) (by rcases hd with rfl | rfl <;> simp)
      (by rcases hd with rfl | rfl <;> simp [needsFree]) (stop := m.steps 1) ?_ ?_ ?_ ?_ (by rcases hd with rfl | rfl <;> rfl) ?_
    · exact stopsAt_mark (by rcases hd with rfl | rfl <;> simp) hI (by rw [← hsm])
    · rw [hb.1]
      simp only [hsm]
      rw [e2, hs1]
      rcases hd with rfl | rfl <;> rfl
    · rw [hb.2, e2, hs1]
      exact hcols _ rfl rfl
    · rw [e2, hs1]
    · have hlv : levelAfter s.flowLevel d = s.flowLevel - 1 := by rcases hd with rfl | rfl <;> rfl
      rcases hkeys with ⟨h1, h2⟩ | ⟨h1, h2⟩
      · left
        exact ⟨h1, by rw [e2]; simp [h2], by omega⟩
      · right
        refine ⟨by rw [hs1]; simp, h1, ?_, ?_⟩
        · rw [e2]
          show s.flowLevel = s.flowLevel - 1 + 1
          omega
        · rw [hlv, e2]
  | flowEntry =>
    simp only [fetchKind, fetchFlowEntry, y_bind, y_act, y_fetchIndicator, Scanner.allow, Except.ok.injEq] at hy
    obtain ⟨_, s1, _, ⟨hr, rfl⟩, _, _, cs, ⟨rfl, rfl⟩, l, e, hl, rfl⟩ := hy
    obtain ⟨k, ks, hks, _, hs1⟩ := removeKey_free hr
    have hsm : s1.mark = m := by rw [hs1, hm]
    have hx : Lexeme (s.flowLevel != 0) s.indent m.column cs .flowEntry cs' cs' false := by
      match l, hl with
      | [a], _ =>
        obtain ⟨r, rfl⟩ := hk
        cases e
        exact .flowEntry _
    have hb := body_simple (x := ⟨.flowEntry, m, m.steps 1, s.flowLevel, s.allowed, false⟩) (by unfold Lx.begins; split <;> rfl)
      rfl rfl (cols := Lx.within ⟨.flowEntry, m, m.steps 1, s.flowLevel, s.allowed, false⟩ (openBlocks [] ls))
    refine removeStep h hpos hB rfl hr hx rfl (by simp) (by simp [needsFree]) (stop := m.steps 1) (stopsAt_mark (by simp) hI (by rw [← hsm])) ?_ ?_ ?_ rfl ?_
    · rw [hb.1]
      simp only [hsm]
      rw [hs1]
      rfl
    · rw [hb.2, hs1]
      exact hcols _ rfl rfl
    · rw [hs1]
    · left
      exact ⟨rfl, by rw [hs1], rfl⟩
  | blockEntry =>
    simp only [fetchKind, fetchBlockEntry, y_bind, y_act, y_fetchIndicator, Scanner.allow, Except.ok.injEq] at hy
    obtain ⟨_, s0, _, ⟨hst, rfl⟩, _, s1, _, ⟨hr, rfl⟩, _, _, cs, ⟨rfl, rfl⟩, l, e, hl, rfl⟩ := hy
    obtain ⟨q1, q2, q3, q4⟩ := startBlock_ok (x := ⟨.blockEntry, m, m.steps 1, s.flowLevel, s.allowed, false⟩) h hm hst rfl rfl
      (fun h0 => by unfold Lx.begins; rw [if_pos h0]) rfl (by simp)
    obtain ⟨k, ks, hks, _, hs1⟩ := removeKey_free hr
    have hsm : s1.mark = m := by rw [hs1, q4, hm]
    have hx : Lexeme (s.flowLevel != 0) s.indent m.column cs .blockEntry cs' cs' false := by
      match l, hl with
      | [a], _ =>
        obtain ⟨r, rfl, hw⟩ := hk
        cases e
        exact .blockEntry _ hw
    refine removeStep h hpos hB (by rw [q4]) hr hx rfl (by simp) (fun h0 _ => q1 h0) (stop := m.steps 1) (stopsAt_mark (by simp) hI (by rw [← hsm])) ?_ ?_ ?_ rfl ?_
    · rw [← q2]
      simp only [hsm]
      rw [hs1]
      rfl
    · rw [← q3, hs1]
    · rw [hs1, q4]
    · left
      exact ⟨rfl, by rw [hs1, q4], rfl⟩
  | key =>
    simp only [fetchKind, fetchKey, y_bind, y_act, y_fetchIndicator, Scanner.allow, Except.ok.injEq] at hy
    obtain ⟨_, s0, _, ⟨hst, rfl⟩, _, s1, _, ⟨hr, rfl⟩, _, _, cs, ⟨rfl, rfl⟩, l, e, hl, rfl⟩ := hy
    obtain ⟨q1, q2, q3, q4⟩ := startBlock_ok (x := ⟨.key, m, m.steps 1, s.flowLevel, s.allowed, false⟩) h hm hst rfl rfl
      (fun h0 => by unfold Lx.begins; rw [if_pos h0]) rfl (by simp)
    obtain ⟨k, ks, hks, _, hs1⟩ := removeKey_free hr
    have hsm : s1.mark = m := by rw [hs1, q4, hm]
    have hx : Lexeme (s.flowLevel != 0) s.indent m.column cs .key cs' cs' false := by
      match l, hl with
      | [a], _ =>
        obtain ⟨r, rfl, hw⟩ := hk
        cases e
        exact .key _ hw
    have hfl : s1.flowLevel = s.flowLevel := by rw [hs1, q4]
    refine removeStep h hpos hB (by rw [q4]) hr hx rfl (by simp) (fun h0 _ => q1 h0) (stop := m.steps 1) (stopsAt_mark (by simp) hI (by rw [← hsm])) ?_ ?_ ?_ ?_ ?_
    · rw [← q2]
      simp only [hsm]
      rw [hs1]
      rfl
    · rw [← q3, hs1]
    · rw [hs1, q4]
    · show (s1.flowLevel == 0) = !(s.flowLevel != 0)
      rw [hfl]
      simp [bne]
    · left
      exact ⟨rfl, hfl, rfl⟩
  | value =>
    simp only [fetchKind, fetchValue, y_bind, y_act, y_fetchIndicator] at hy
    obtain ⟨_, s0, cs, ⟨hv, rfl⟩, l, e, hl, rfl⟩ := hy
    have hx : Lexeme (s.flowLevel != 0) s.indent m.column cs .value cs' cs' false := by
      match l, hl with
      | [a], _ =>
        obtain ⟨r, rfl, hw⟩ := hk
        cases e
        exact .value _ hw
    unfold valueKey at hv
    split at hv
    · cases hv
    · rename_i k ks hks
      split at hv
      · rename_i hpo
        have hmk : s0.mark = m := by rw [insertKey_mark hv, hm]
        obtain ⟨pre, c, post, hpd, hreach, ha, hfl, hmm, hfit⟩ := (h.fit (x := ⟨.value, m, m.steps 1, s.flowLevel, s.allowed, true⟩) rfl rfl).insertKey hks hpo
          (hfresh k (by rw [hks]; simp) hpo) hv rfl rfl hpos rfl rfl hB (s'' := { s0 with
            mark := s0.mark.steps 1, tokens := s0.tokens ++ [{ data := .value, start := s0.mark, stop := s0.mark.steps 1 }] }) (by rw [hmk]; rfl)
        refine ⟨.value, false, true, _, m.steps 1, _, hx, .implicit rfl hpd hreach, ?_, ?_, ?_, hfl, ha, hfit⟩
        · simp [endsPending, opensKey]
        · simp [needsFree]
        · exact stopsAt_mark (by simp) hI (by show m.steps 1 = s0.mark.steps 1; rw [hmk])
      · rename_i hpo
        cases hsb : startBlock .blockMappingStart "mapping values are not allowed in this context" s with
        | error er => rw [hsb] at hv; cases hv
        | ok s1 =>
          rw [hsb] at hv
          simp only [Scanner.allow, Except.ok.injEq] at hv
          subst hv
          obtain ⟨q1, q2, q3, q4⟩ := startBlock_ok (x := ⟨.value, m, m.steps 1, s.flowLevel, s.allowed, false⟩) h hm hsb rfl rfl
            (fun h0 => by unfold Lx.begins; rw [if_pos h0]; rfl) rfl (by simp)
          have hsm : s1.mark = m := by rw [q4, hm]
          have hfl : s1.flowLevel = s.flowLevel := by rw [q4]
          have hfit := h.fit (x := ⟨.value, m, m.steps 1, s.flowLevel, s.allowed, false⟩) rfl rfl
          have hkf := h.keys
          have hlen := h.levels
          rw [hks] at hkf hlen
          have hlen : ks.length = s.flowLevel := by simpa using hlen
          have hk1 := hkf.1
          unfold KeyFit at hk1
          rw [if_neg hpo, hlen] at hk1
          refine ⟨.value, false, false, ls, m.steps 1, _, hx, .explicit rfl fun pre l post hp => (hk1 pre l post hp).1 m .refl, ?_, fun h0 _ => q1 h0, ?_, hfl, ?_, ?_⟩
          · simp [endsPending, opensKey]
          · exact stopsAt_mark (by simp) hI (by show m.steps 1 = s1.mark.steps 1; rw [hsm])
          · show (s1.flowLevel == 0) = (!false && !(s.flowLevel != 0))
            rw [hfl]
            simp [bne]
          · refine hfit.push hpos rfl hB ?_ q3 ?_ (by rw [q4]) ?_ rfl
            · rw [← q2]
              simp only [hsm]
              rfl
            · show s1.keys.length = s1.flowLevel + 1
              rw [hfl, q4]
              exact h.levels
            · show OnLevels _ s1.keys
              rw [q4]
              show OnLevels _ s.keys
              rw [hks]
              refine ⟨?_, fits_inner hkf.2 (by show ks.length ≤ s.flowLevel; omega)⟩
              exact keyFit_none (by simpa using hpo) fun _ _ _ => pending_ended (by simp only; omega) rfl
  | anchor a =>
    simp only [fetchKind, fetchAnchor, y_bind, y_act, y_lex, Scanner.enqueue, Scanner.allow, Except.ok.injEq] at hy
    obtain ⟨_, s1, _, ⟨hr, rfl⟩, _, _, cs, ⟨rfl, rfl⟩, t, _, _, ⟨m1, hl, rfl⟩, rfl, rfl⟩ := hy
    obtain ⟨td, ts, tp⟩ := t
    obtain ⟨g1, g2⟩ := scanAnchor_marks hl
    obtain ⟨r, rfl⟩ := hk
    obtain ⟨v, h1, h2⟩ := (scanAnchor_iff (m := s1.mark) (by simp at hf; omega)).mp ⟨_, _, _, hl⟩
    have hs1 : s1.mark = m := by rw [saveKey_mark hr, hm]
    cases a with
    | true =>
      have h2 : td = .anchor v := h2
      subst h2
      exact saveStep (t := ⟨.anchor v, ts, tp⟩) h hm hpos hB hr (.anchor h1) rfl (stopsAt_mark (by simp) hI g2) rfl (g1.trans hs1) rfl rfl rfl rfl rfl (.inl ⟨rfl, rfl, rfl⟩)
    | false =>
      have h2 : td = .alias v := h2
      subst h2
      exact saveStep (t := ⟨.alias v, ts, tp⟩) h hm hpos hB hr (.alias h1) rfl (stopsAt_mark (by simp) hI g2) rfl (g1.trans hs1) rfl rfl rfl rfl rfl (.inl ⟨rfl, rfl, rfl⟩)
  | tag =>
    simp only [fetchKind, fetchTag, y_bind, y_act, y_lex, y_get, Scanner.enqueue, Scanner.allow, Except.ok.injEq] at hy
    obtain ⟨_, s1, _, ⟨hr, rfl⟩, _, _, _, ⟨rfl, rfl⟩, _, _, cs, ⟨rfl, rfl, rfl⟩, t, _, _, ⟨m1, hl, rfl⟩, rfl, rfl⟩ := hy
    obtain ⟨r, rfl⟩ := hk
    have hs1 : s1.mark = m := by rw [saveKey_mark hr, hm]
    have hfl : s1.flowLevel = s.flowLevel := saveKey_level hr
    obtain ⟨g1, g2, hd, v, h1, h2⟩ := scanTag_sound (by simpa using hf) hl
    simp only [hfl] at h1
    exact saveStep h hm hpos hB hr (.tag h1) rfl (stopsAt_mark (by simp) hI g2) h2 (g1.trans hs1) rfl rfl rfl rfl rfl (.inl ⟨rfl, rfl, rfl⟩)
  | block lt =>
    simp only [fetchKind, fetchBlockScalar, y_bind, y_act, y_lex, y_get, Scanner.enqueue, Scanner.allow, Except.ok.injEq] at hy
    obtain ⟨_, s1, _, ⟨hr, rfl⟩, _, _, _, ⟨rfl, rfl⟩, _, _, cs, ⟨rfl, rfl, rfl⟩, t, _, _, ⟨m1, hl, rfl⟩, rfl, rfl⟩ := hy
    obtain ⟨hfl, r, rfl⟩ := hk
    obtain ⟨td, ts, tp⟩ := t
    obtain ⟨k, ks, hks, _, hs1⟩ := removeKey_free hr
    have hsm : s1.mark = m := by rw [hs1, hm]
    have hin : s1.indent = s.indent := by rw [hs1]
    have g1 := scanBlockScalar_start hl
    obtain ⟨v, mid, h1, h2, hidx⟩ := scanBlockScalar_sound (by simp at hf; omega) hl
    simp only [hin] at h1
    have g1 : ts = m := by rw [← hsm]; exact g1
    have hx : Lexeme (s.flowLevel != 0) s.indent m.column ((if lt = true then 0x7C else 0x3E) :: r) td mid cs' false := by
      subst h2
      cases lt with
      | true => exact .literal hfl h1
      | false => exact .folded hfl h1
    have hd : td = .scalar v .literal ∨ td = .scalar v .folded := by
      subst h2
      cases lt with
      | true => exact .inl rfl
      | false => exact .inr rfl
    have hb := body_simple (x := ⟨td, m, tp, s.flowLevel, s.allowed, false⟩) (by rcases hd with rfl | rfl <;> (unfold Lx.begins; split <;> rfl))
      (by rcases hd with rfl | rfl <;> rfl) rfl (cols := Lx.within ⟨td, m, tp, s.flowLevel, s.allowed, false⟩ (openBlocks [] ls))
    refine removeStep h hpos hB rfl hr hx (by rcases hd with rfl | rfl <;> rfl) (by rcases hd with rfl | rfl <;> simp)
      (by rcases hd with rfl | rfl <;> simp [needsFree]) (stop := tp) ?_ ?_ ?_ ?_ (by rcases hd with rfl | rfl <;> rfl) ?_
    · exact stopsAt_mid (by rcases hd with rfl | rfl <;> simp) (by rw [← hsm]; exact hidx)
    · rw [hb.1, g1, hs1]
      rcases hd with rfl | rfl <;> rfl
    · rw [hb.2, hs1]
      exact hcols _ rfl rfl
    · rw [hs1]
    · left
      exact ⟨rfl, by rw [hs1], by rcases hd with rfl | rfl <;> rfl⟩
  | quoted q =>
    simp only [fetchKind, fetchFlowScalar, y_bind, y_act, y_lex, Scanner.enqueue, Scanner.allow, Except.ok.injEq] at hy
    obtain ⟨_, s1, _, ⟨hr, rfl⟩, _, _, cs, ⟨rfl, rfl⟩, t, _, _, ⟨m1, hl, rfl⟩, rfl, rfl⟩ := hy
    obtain ⟨r, rfl⟩ := hk
    have hs1 : s1.mark = m := by rw [saveKey_mark hr, hm]
    obtain ⟨g1, g2, v, h1, h2⟩ := scanFlowScalar_sound hl
    simp only [hs1] at h1
    cases q with
    | true => exact saveStep h hm hpos hB hr (.single h1) rfl (stopsAt_mark (by simp) hI g2) h2 (g1.trans hs1) rfl rfl rfl rfl rfl (.inl ⟨rfl, rfl, rfl⟩)
    | false => exact saveStep h hm hpos hB hr (.double h1) rfl (stopsAt_mark (by simp) hI g2) h2 (g1.trans hs1) rfl rfl rfl rfl rfl (.inl ⟨rfl, rfl, rfl⟩)
  | plain =>
    simp only [fetchKind, fetchPlainScalar, y_bind, y_act, y_lex, y_get, Scanner.enqueue, Scanner.allow, Except.ok.injEq] at hy
    obtain ⟨_, s1, _, ⟨hr, rfl⟩, _, _, _, ⟨rfl, rfl⟩, _, _, cs, ⟨rfl, rfl, rfl⟩, ⟨t, bl⟩, _, _, ⟨m1, hl, rfl⟩, _, _, _, ⟨rfl, rfl⟩, rfl, rfl⟩ := hy
    have hs1 : s1.mark = m := by rw [saveKey_mark hr, hm]
    have hfl : s1.flowLevel = s.flowLevel := saveKey_level hr
    have hin : s1.indent = s.indent := saveKey_indent hr
    have hc : ¬ ∃ r, cs = 0x23 :: r := by
      rintro ⟨r, rfl⟩
      obtain ⟨⟨c, r', e, ⟨_, hn⟩ | ⟨hn, _⟩⟩, _⟩ := hk
      · cases e; simp at hn
      · cases e; simp at hn
    obtain ⟨g1, v, h1, h2⟩ := scanPlainScalar_sound (by simp only [hs1]; exact hk.2) hc hl
    simp only [hs1, hfl, hin] at h1
    obtain ⟨mid, ht, hidx⟩ := scanPlainScalar_stop (flow := s.flowLevel != 0) (plainFirst_char hk.1) h1 (by rw [← hfl]; exact hl)
    exact saveStep h hm hpos hB hr (.plain hk.1 hk.2 h1 ht) rfl (stopsAt_mid (by simp) (by rw [← hs1]; exact hidx)) h2 (g1.trans hs1) rfl rfl rfl rfl (by simp [freeAfter]) (.inl ⟨rfl, rfl, rfl⟩)

end LibYaml
