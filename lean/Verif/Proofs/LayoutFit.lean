import Verif.Proofs.Layout
import Verif.Proofs.Scanner
import Verif.Proofs.Yields

/-!
# The state of the scanner and the layout of the lexemes read so far

`Fit`: the queue holds the tokens of the layout, the stack of indentations is the stack of the layout, the simple keys are the pending lexemes of
the levels.
-/

namespace LibYaml

open Spec

/-- A property of the simple keys and their levels. -/
def OnLevels (P : Nat → SimpleKey → Prop) : List SimpleKey → Prop
  | [] => True
  | k :: ks => P ks.length k ∧ OnLevels P ks

/-- Later than `m`. -/
def Beyond (m m' : Mark) : Prop := m.index ≤ m'.index ∧ m.line ≤ m'.line

/-- A simple key of the level `v` after the lexemes `ls`, at `m`. -/
def KeyFit (ls : List Lx) (m : Mark) (v : Nat) (k : SimpleKey) : Prop :=
  if k.possible = true then
    ∃ pre l post, Pending ls v pre l post ∧ k.mark = l.pos ∧ k.tokenNumber = number pre l ∧ (k.required = true ↔ Required pre l)
  else ∀ pre l post, Pending ls v pre l post → (∀ m', Beyond m m' → ¬ l.reaches m') ∧ ¬ Required pre l

/-- See above. -/
structure Fit (T : List Nat) (S : Token) (D : List Token) (ls : List Lx) (m : Mark) (ex : List Token) (cols : List Nat) (s : Scanner) : Prop where
  toks : D ++ s.tokens = S :: (layout [] ls ++ ex)
  cols : s.indent :: s.indents = cols.map Int.ofNat ++ [-1]
  levels : s.keys.length = s.flowLevel + 1
  parsed : s.tokensParsed = D.length
  keys : OnLevels (KeyFit ls m) s.keys
  place : ∀ x ∈ ls, IsPos T x.pos ∧ x.pos.index ≤ m.index
  order : ls.Pairwise fun x y => x.pos.index ≤ y.pos.index
  frees : ∀ x ∈ ls, x.keyed = true → x.data = .value ∨ x.free = true
  unkeyed : ∀ v pre l post, Pending ls v pre l post → l.keyed = false

variable {T : List Nat} {S : Token} {D ex : List Token} {ls pre post : List Lx} {m m' : Mark} {cols : List Nat} {s s' : Scanner} {l x : Lx} {v : Nat}

theorem Beyond.refl : Beyond m m := ⟨Nat.le_refl _, Nat.le_refl _⟩
theorem Beyond.trans {a b c : Mark} (h : Beyond a b) (h' : Beyond b c) : Beyond a c := ⟨Nat.le_trans h.1 h'.1, Nat.le_trans h.2 h'.2⟩

theorem OnLevels.mono {P Q : Nat → SimpleKey → Prop} {ks : List SimpleKey} (h : OnLevels P ks) (hpq : ∀ v k, v < ks.length → P v k → Q v k) : OnLevels Q ks := by
  induction ks with
  | nil => trivial
  | cons k ks ih => exact ⟨hpq _ _ (by simp) h.1, ih h.2 fun v k hv hk => hpq v k (by simp; omega) hk⟩

theorem OnLevels.map {P Q : Nat → SimpleKey → Prop} {g : SimpleKey → SimpleKey} {ks : List SimpleKey} (h : OnLevels P ks)
    (hpq : ∀ v k, k ∈ ks → P v k → Q v (g k)) : OnLevels Q (ks.map g) := by
  induction ks with
  | nil => trivial
  | cons k ks ih =>
    refine ⟨?_, ih h.2 fun v k hk => hpq v k (by simp [hk])⟩
    simp only [List.length_map]
    exact hpq _ _ (by simp) h.1

/-- The key of the lowest level. -/
theorem OnLevels.zero {P : Nat → SimpleKey → Prop} {ks : List SimpleKey} (h : OnLevels P ks) (hn : ks ≠ []) : ∃ k ∈ ks, P 0 k := by
  induction ks with
  | nil => exact absurd rfl hn
  | cons k ks ih =>
    cases ks with
    | nil => exact ⟨k, by simp, h.1⟩
    | cons k' ks =>
      obtain ⟨x, hx, hp⟩ := ih h.2 (by simp)
      exact ⟨x, by simp [List.mem_cons.mp hx], hp⟩

theorem KeyFit.later {k : SimpleKey} (h : KeyFit ls m v k) (hm : Beyond m m') : KeyFit ls m' v k := by
  unfold KeyFit at *
  split
  · rename_i hp; rwa [if_pos hp] at h
  · rename_i hp
    rw [if_neg hp] at h
    intro pre l post hpd
    exact ⟨fun m'' hm'' => (h pre l post hpd).1 m'' (hm.trans hm''), (h pre l post hpd).2⟩

theorem indent_eq (h : s.indent :: s.indents = cols.map Int.ofNat ++ [-1]) : s.indent = indentOf cols := by
  cases cols with
  | nil => simp at h; exact h.1
  | cons c r => simp at h; exact h.1

/-! ### Stale keys -/

theorem keyFit_stale {k : SimpleKey} (h : KeyFit ls m v k) (hm : Beyond m m') (hr : k.stale m' = true → k.required = false) :
    KeyFit ls m' v (dropStale m' k) := by
  by_cases hs : k.stale m' = true
  · have hd : dropStale m' k = { k with possible := false } := by simp [dropStale, hs]
    rw [hd]
    unfold KeyFit at *
    simp only [Bool.false_eq_true, if_false]
    have hp : k.possible = true := by
      simp only [SimpleKey.stale, Bool.and_eq_true] at hs
      exact hs.1
    rw [if_pos hp] at h
    obtain ⟨pre, l, post, h1, h2, h3, h4⟩ := h
    intro pre' l' post' h'
    obtain ⟨rfl, rfl, rfl⟩ := pending_unique h1 h'
    refine ⟨fun m'' hm'' hreach => ?_, fun hreq => ?_⟩
    · simp only [SimpleKey.stale, hp, Bool.true_and, Bool.or_eq_true, decide_eq_true_eq] at hs
      rw [h2] at hs
      obtain ⟨a, b⟩ := hreach
      obtain ⟨c, d⟩ := hm''
      omega
    · have := hr hs
      rw [h4.mpr hreq] at this
      cases this
  · have hd : dropStale m' k = k := by simp [dropStale, hs]
    rw [hd]
    exact h.later hm

theorem Fit.stale (h : Fit T S D ls m ex cols s) (hm : Beyond m s.mark) (hs : s.stale = .ok s') :
    Fit T S D ls s.mark ex cols s' ∧ s' = { s with keys := s'.keys } ∧ ∀ k ∈ s'.keys, k.possible = true → k.stale s.mark = false := by
  unfold Scanner.stale at hs
  cases hr : staleKeys s.mark s.keys with
  | error er => rw [hr] at hs; cases hs
  | ok ks =>
    rw [hr] at hs
    cases hs
    obtain ⟨rfl, h2⟩ := staleKeys_ok hr
    refine ⟨⟨h.toks, h.cols, by simpa using h.levels, h.parsed, h.keys.map fun v k hk hf => keyFit_stale hf hm (h2 k hk), ?_, h.order, h.frees, h.unkeyed⟩, rfl,
      fun k hk hp => (mem_dropStale hk hp).2⟩
    intro x hx
    have := h.place x hx
    exact ⟨this.1, Nat.le_trans this.2 hm.1⟩

/-! ### Closing block collections -/

theorem unrollLoop_cols {col : Nat} {mark : Mark} {ind : Int} {inds : List Int} {q : List Token} (h : ind :: inds = cols.map Int.ofNat ++ [-1]) :
    ∃ ind' inds', unrollLoop col mark ind inds q = .ok (ind', inds', q ++ blockEnds mark (endedBlocks col cols)) ∧
      ind' :: inds' = (stillOpen col cols).map Int.ofNat ++ [-1] := by
  induction cols generalizing ind inds q with
  | nil =>
    simp at h
    obtain ⟨rfl, rfl⟩ := h
    refine ⟨-1, [], ?_, rfl⟩
    unfold unrollLoop
    rw [if_neg (by omega)]
    simp [endedBlocks, blockEnds]
  | cons c r ih =>
    simp only [List.map_cons, List.cons_append, List.cons.injEq] at h
    obtain ⟨rfl, rfl⟩ := h
    obtain ⟨j, js, hj⟩ : ∃ j js, r.map Int.ofNat ++ [-1] = j :: js := by
      cases r with
      | nil => exact ⟨_, _, rfl⟩
      | cons a b => exact ⟨_, _, rfl⟩
    rw [hj]
    unfold unrollLoop
    by_cases hc : col < c
    · rw [if_pos (by show (col : Int) < (c : Int); omega)]
      obtain ⟨ind', inds', h1, h2⟩ := ih (q := q ++ [{ data := .blockEnd, start := mark, stop := mark }]) hj.symm
      refine ⟨ind', inds', ?_, ?_⟩
      · rw [h1]
        simp [endedBlocks, blockEnds, hc]
      · rw [h2]
        simp [stillOpen, hc]
    · rw [if_neg (by show ¬ (col : Int) < (c : Int); omega)]
      refine ⟨Int.ofNat c, j :: js, ?_, ?_⟩
      · simp [endedBlocks, blockEnds, hc]
      · simp [stillOpen, hc, hj]

theorem unrollLoop_all {mark : Mark} {ind : Int} {inds : List Int} {q : List Token} (h : ind :: inds = cols.map Int.ofNat ++ [-1]) :
    unrollLoop (-1) mark ind inds q = .ok (-1, [], q ++ blockEnds mark cols) := by
  induction cols generalizing ind inds q with
  | nil =>
    simp at h
    obtain ⟨rfl, rfl⟩ := h
    unfold unrollLoop
    rw [if_neg (by omega)]
    simp [blockEnds]
  | cons c r ih =>
    simp only [List.map_cons, List.cons_append, List.cons.injEq] at h
    obtain ⟨rfl, rfl⟩ := h
    obtain ⟨j, js, hj⟩ : ∃ j js, r.map Int.ofNat ++ [-1] = j :: js := by
      cases r with
      | nil => exact ⟨_, _, rfl⟩
      | cons a b => exact ⟨_, _, rfl⟩
    rw [hj]
    unfold unrollLoop
    rw [if_pos (by show (-1 : Int) < (c : Int); omega), ih hj.symm]
    simp [blockEnds]

/-- In front of a lexeme. -/
theorem Fit.unroll (h : Fit T S D ls m [] cols s) (hs : s.unrollIndent s.mark.column = .ok s') (hl : l.level = s.flowLevel) (hp : l.pos = s.mark) :
    Fit T S D ls m (l.closing cols) (l.within cols) s' ∧ s' = { s with tokens := s'.tokens, indent := s'.indent, indents := s'.indents } := by
  unfold Scanner.unrollIndent at hs
  unfold Lx.closing Lx.within
  rw [hl, hp]
  by_cases h0 : s.flowLevel = 0
  · rw [if_neg (by omega)] at hs
    rw [if_pos h0, if_pos h0]
    obtain ⟨ind, inds, h1, h2⟩ := unrollLoop_cols (col := s.mark.column) (mark := s.mark) (q := s.tokens) h.cols
    rw [h1] at hs
    cases hs
    refine ⟨⟨?_, h2, h.levels, h.parsed, h.keys, h.place, h.order, h.frees, h.unkeyed⟩, rfl⟩
    have := h.toks
    simp only [List.append_nil] at this
    simp only [← List.append_assoc]
    rw [this]
    simp
  · rw [if_pos h0] at hs
    cases hs
    rw [if_neg h0, if_neg h0]
    exact ⟨h, rfl⟩

/-! ### The keys when a lexeme is added -/

theorem keyFit_inner {k : SimpleKey} (h : KeyFit ls m v k) (hx : v < x.level) : KeyFit (ls ++ [x]) m v k := by
  unfold KeyFit at *
  split
  · rename_i hp
    rw [if_pos hp] at h
    obtain ⟨pre, l, post, h1, h2⟩ := h
    exact ⟨pre, l, _, (pending_inner hx).mpr ⟨post, rfl, h1⟩, h2⟩
  · rename_i hp
    rw [if_neg hp] at h
    intro pre l post hpd
    obtain ⟨post', rfl, h1⟩ := (pending_inner hx).mp hpd
    exact h pre l post' h1

theorem fits_inner {ks : List SimpleKey} (h : OnLevels (KeyFit ls m) ks) (hx : ks.length ≤ x.level) : OnLevels (KeyFit (ls ++ [x]) m) ks :=
  h.mono fun _ _ hv hk => keyFit_inner hk (by omega)

theorem keyFit_none {k : SimpleKey} (hk : k.possible = false) (h : ∀ pre l post, ¬ Pending ls v pre l post) : KeyFit ls m v k := by
  unfold KeyFit
  rw [if_neg (by simp [hk])]
  intro pre l post hp
  exact absurd hp (h pre l post)

/-- A key that is not required can be dropped. -/
theorem keyFit_lost {k : SimpleKey} (h : KeyFit ls m v k) (hk : (k.possible && k.required) = false) :
    ∀ pre l post, Pending ls v pre l post → ¬ Required pre l := by
  intro pre l post hp hr
  unfold KeyFit at h
  by_cases hpo : k.possible = true
  · rw [if_pos hpo] at h
    obtain ⟨pre', l', post', h1, _, _, h4⟩ := h
    obtain ⟨rfl, rfl, rfl⟩ := pending_unique h1 hp
    rw [hpo, h4.mpr hr] at hk
    cases hk
  · rw [if_neg hpo] at h
    exact (h pre l post hp).2 hr

theorem removeKey_free (hs : s.removeKey = .ok s') :
    ∃ k ks, s.keys = k :: ks ∧ (k.possible && k.required) = false ∧ s' = { s with keys := { k with possible := false } :: ks } := by
  unfold Scanner.removeKey at hs
  split at hs
  · cases hs
  · rename_i k ks hk
    split at hs
    · cases hs
    · rename_i hr
      cases hs
      exact ⟨k, ks, hk, by simpa using hr, rfl⟩

theorem Fit.removeKey (h : Fit T S D ls m ex cols s) (hs : s.removeKey = .ok s') (hl : x.level = s.flowLevel) (hx : opensKey x.data = false) :
    OnLevels (KeyFit (ls ++ [x]) m) s'.keys ∧ s' = { s with keys := s'.keys } ∧ s'.keys.length = s.keys.length ∧
      ∀ pre l post, Pending ls s.flowLevel pre l post → ¬ Required pre l := by
  obtain ⟨k, ks, hk, hr, rfl⟩ := removeKey_free hs
  have hf := h.keys
  have hlen := h.levels
  rw [hk] at hf hlen
  have hlen : ks.length = s.flowLevel := by simpa using hlen
  refine ⟨⟨keyFit_none rfl fun _ _ _ => pending_ended (by omega) hx, fits_inner hf.2 (by omega)⟩, rfl, by simp [hk], ?_⟩
  rw [← hlen]
  exact keyFit_lost hf.1 hr

theorem Fit.saveKey (h : Fit T S D ls m (x.closing (openBlocks [] ls)) (x.within (openBlocks [] ls)) s) (hs : s.saveKey = .ok s') (hl : x.level = s.flowLevel) (hp : x.pos = s.mark) (hf : x.free = s.allowed) (hx : opensKey x.data = true) :
    OnLevels (KeyFit (ls ++ [x]) m) s'.keys ∧ s' = { s with keys := s'.keys } ∧ s'.keys.length = s.keys.length ∧
      (s.allowed = true → ∀ pre l post, Pending ls s.flowLevel pre l post → ¬ Required pre l) := by
  unfold Scanner.saveKey at hs
  by_cases ha : s.allowed = true
  · rw [if_pos ha] at hs
    cases hr : s.removeKey with
    | error er => rw [hr] at hs; cases hs
    | ok s1 =>
      rw [hr] at hs
      obtain ⟨k, ks, hk, hreq, rfl⟩ := removeKey_free hr
      simp only at hs
      cases hs
      have hfk := h.keys
      have hlen := h.levels
      rw [hk] at hfk hlen
      have hlen : ks.length = s.flowLevel := by simpa using hlen
      refine ⟨⟨?_, fits_inner hfk.2 (by omega)⟩, rfl, by simp [hk], fun _ => ?_⟩
      · unfold KeyFit
        rw [if_pos rfl]
        refine ⟨ls, x, [], pending_snoc.mpr (.inl ⟨rfl, rfl, rfl, by omega, by rw [hf, ha], hx⟩), hp.symm, ?_, ?_⟩
        · have := congrArg List.length h.toks
          simp at this
          have hpa := h.parsed
          simp only [number]
          show s.tokensParsed + s.tokens.length = _
          omega
        · unfold Required
          rw [← indent_eq h.cols, hl, hp]
          simp
      · rw [← hlen]
        exact keyFit_lost hfk.1 hreq
  · rw [if_neg ha] at hs
    cases hs
    have hff : x.free = false := by rw [hf]; simpa using ha
    refine ⟨?_, rfl, rfl, fun h => absurd h ha⟩
    have hfk := h.keys
    have hlen := h.levels
    cases hk : s.keys with
    | nil => trivial
    | cons k ks =>
      rw [hk] at hfk hlen
      have hlen : ks.length = s.flowLevel := by simpa using hlen
      refine ⟨?_, fits_inner hfk.2 (by omega)⟩
      have h1 := hfk.1
      have hpend : ∀ pre l post, Pending (ls ++ [x]) ks.length pre l post ↔ ∃ post', post = post' ++ [x] ∧ Pending ls ks.length pre l post' := by
        intro pre l post
        rw [pending_snoc]
        constructor
        · rintro (⟨_, _, _, _, h, _⟩ | ⟨p, h1, h2, _⟩)
          · rw [hff] at h; cases h
          · exact ⟨p, h1, h2⟩
        · rintro ⟨p, h1, h2⟩
          exact .inr ⟨p, h1, h2, by omega, fun _ => ⟨hx, hff⟩⟩
      unfold KeyFit at h1 ⊢
      split
      · rename_i hp
        rw [if_pos hp] at h1
        obtain ⟨pre, l, post, h1, h2⟩ := h1
        exact ⟨pre, l, _, (hpend _ _ _).mpr ⟨post, rfl, h1⟩, h2⟩
      · rename_i hp
        rw [if_neg hp] at h1
        intro pre l post hpd
        obtain ⟨post', rfl, h2⟩ := (hpend _ _ _).mp hpd
        exact h1 pre l post' h2

/-! ### A lexeme is added -/

theorem Fit.push (h : Fit T S D ls m (x.closing (openBlocks [] ls)) (x.within (openBlocks [] ls)) s) (hpos : IsPos T x.pos) (hp : x.pos = m) (hm : Beyond m m')
    (ht : s'.tokens = s.tokens ++ x.body (x.within (openBlocks [] ls)))
    (hc : s'.indent :: s'.indents = (x.leaves (x.within (openBlocks [] ls))).map Int.ofNat ++ [-1])
    (hl : s'.keys.length = s'.flowLevel + 1) (hpa : s'.tokensParsed = s.tokensParsed) (hk : OnLevels (KeyFit (ls ++ [x]) m) s'.keys)
    (hf : x.keyed = false) : Fit T S D (ls ++ [x]) m' [] (openBlocks [] (ls ++ [x])) s' := by
  refine ⟨?_, ?_, hl, by rw [hpa, h.parsed], hk.mono fun _ _ _ h => h.later hm, ?_, ?_, ?_, ?_⟩
  · rw [ht, ← List.append_assoc, h.toks, layout_append]
    simp [layout]
  · rw [hc, openBlocks_append]
    rfl
  · intro y hy
    rcases List.mem_append.mp hy with hy | hy
    · have := h.place y hy
      exact ⟨this.1, Nat.le_trans this.2 hm.1⟩
    · simp at hy
      subst hy
      exact ⟨hpos, by rw [hp]; exact hm.1⟩
  · refine List.pairwise_append.mpr ⟨h.order, by simp, fun a ha b hb => ?_⟩
    simp at hb
    subst hb
    rw [hp]
    exact (h.place a ha).2
  · intro y hy
    rcases List.mem_append.mp hy with hy | hy
    · exact h.frees y hy
    · simp at hy
      subst hy
      intro h
      rw [hf] at h
      cases h
  · intro v pre l post hpd
    rcases pending_snoc.mp hpd with ⟨_, rfl, _⟩ | ⟨p, _, h', _⟩
    · exact hf
    · exact h.unkeyed _ _ _ _ h'

/-! ### Implicit keys -/

theorem insert_ok {n : Nat} {t : Token} {A B : List Token} {s : Scanner} (hs : s.insert n t = .ok s') (hp : s.tokensParsed = D.length) (ht : D ++ s.tokens = A ++ B)
    (hA : A.length = n) : D ++ s'.tokens = A ++ t :: B ∧ s' = { s with tokens := s'.tokens } := by
  unfold Scanner.insert at hs
  split at hs
  · cases hs
  · rename_i hn
    cases hs
    refine ⟨?_, rfl⟩
    have hle : D.length ≤ A.length := by omega
    obtain ⟨C, rfl⟩ : ∃ C, A = D ++ C := by
      obtain ⟨C, hC⟩ : D <+: A := List.prefix_of_prefix_length_le ⟨_, ht⟩ ⟨_, rfl⟩ hle
      exact ⟨C, hC.symm⟩
    have ht' : s.tokens = C ++ B := by
      rw [List.append_assoc] at ht
      exact List.append_cancel_left ht
    have hn' : n - s.tokensParsed = C.length := by simp at hA; omega
    simp only [hn', ht']
    simp

theorem within_le (h : x.level = 0 → indentOf cols ≤ x.pos.column) : x.closing cols = [] ∧ x.within cols = cols := by
  unfold Lx.closing Lx.within
  by_cases h0 : x.level = 0
  · obtain ⟨a, b⟩ := stillOpen_id (h h0)
    rw [if_pos h0, if_pos h0, a, b]
    exact ⟨rfl, rfl⟩
  · rw [if_neg h0, if_neg h0]
    exact ⟨rfl, rfl⟩

/-- What is pending on an outer level stands in front of what is pending on an inner level. -/
theorem pending_front {a b : List Lx} {c : Lx} {lv : Nat} (hc : Pending ls lv a c b) (h : Pending ls v pre l post) (hv : v < lv) :
    ∃ p, post = p ++ c :: b ∧ a = pre ++ l :: p := by
  have h1 := h.eq
  rw [hc.eq] at h1
  have : pre.length < a.length := by
    refine Nat.lt_of_not_le fun hle => ?_
    obtain ⟨n, hn⟩ := Nat.le.dest hle
    have he := congrArg (fun z => z[pre.length]?) h1
    simp only [List.getElem?_append_right hle, List.getElem?_append_right (Nat.le_refl _)] at he
    rw [show pre.length - a.length = n by omega] at he
    have hl := h.level
    cases n with
    | zero => simp at he; rw [← he] at hl; have := hc.level; omega
    | succ n =>
      simp at he
      have := (hc.rest l (List.mem_of_getElem? he)).1
      omega
  obtain ⟨r, hr⟩ : pre <+: a := List.prefix_of_prefix_length_le (l₃ := a ++ c :: b) ⟨_, h1.symm⟩ ⟨_, rfl⟩ (by omega)
  subst hr
  cases r with
  | nil => simp at this
  | cons y r =>
    simp at h1
    exact ⟨r, h1.2.symm, by rw [h1.1]⟩

theorem layout_snoc (v1 : x.closing (openBlocks [] ls) = []) (v2 : x.within (openBlocks [] ls) = openBlocks [] ls)
    (hb : ∀ cols, x.body cols = [x.token] ∧ x.leaves cols = cols) :
    layout [] (ls ++ [x]) = layout [] ls ++ [x.token] ∧ openBlocks [] (ls ++ [x]) = openBlocks [] ls := by
  rw [layout_append, openBlocks_append]
  simp only [layout, openBlocks, v1, v2, (hb _).1, (hb _).2]
  simp

/-- `:` behind an implicit key. -/
theorem Fit.insertKey {s'' : Scanner} {k : SimpleKey} {ks : List SimpleKey} (h : Fit T S D ls m (x.closing (openBlocks [] ls)) (x.within (openBlocks [] ls)) s)
    (hk : s.keys = k :: ks) (hpo : k.possible = true) (hst : k.stale m = false) (hs : s.insertKey k = .ok s') (hl : x.level = s.flowLevel)
    (hp : x.pos = m) (hpos : IsPos T m) (hd : x.data = .value) (hkd : x.keyed = true) (hm : Beyond m m') (ht : s'' = { s' with mark := m', tokens := s'.tokens ++ [x.token] }) :
    ∃ pre c post, Pending ls s.flowLevel pre c post ∧ c.reaches m ∧ s'.allowed = false ∧ s'.flowLevel = s.flowLevel ∧ s'.mark = s.mark ∧
      Fit T S D (pre ++ { c with keyed := true } :: post ++ [x]) m' [] (openBlocks [] (pre ++ { c with keyed := true } :: post ++ [x])) s'' := by
  have hfk := h.keys
  have hlen := h.levels
  rw [hk] at hfk hlen
  have hlen : ks.length = s.flowLevel := by simpa using hlen
  have h1 := hfk.1
  unfold KeyFit at h1
  rw [if_pos hpo, hlen] at h1
  obtain ⟨pre, c, post, hpd, hmk, hnum, _⟩ := h1
  have hmem : c ∈ ls := by rw [hpd.eq]; simp
  have hreach : c.reaches m := by
    simp only [SimpleKey.stale, hpo, Bool.true_and, Bool.or_eq_false_iff, decide_eq_false_iff_not] at hst
    have := pos_line_le (h.place c hmem).1 hpos (h.place c hmem).2
    rw [hmk] at hst
    exact ⟨by omega, by omega⟩
  -- the lexemes behind the key
  have hpost : ∀ y ∈ post, if c.level = 0 then Still c.pos.column y else y.level ≠ 0 := by
    intro y hy
    have hyls : y ∈ ls := by rw [hpd.eq]; simp [hy]
    have hr := hpd.rest y hy
    split
    · rename_i h0
      by_cases hy0 : y.level = 0
      · right
        obtain ⟨a, b⟩ := hr.2 (by rw [hy0, ← hpd.level, h0])
        refine ⟨a, ?_, ?_⟩
        · have hord := h.order
          rw [hpd.eq] at hord
          have hle : c.pos.index ≤ y.pos.index := by
            have := (List.pairwise_append.mp hord).2.1
            exact (List.pairwise_cons.mp this).1 y hy
          have l1 := pos_line_le (h.place c hmem).1 (h.place y hyls).1 hle
          have l2 := pos_line_le (h.place y hyls).1 hpos (h.place y hyls).2
          exact pos_column_le (h.place c hmem).1 (h.place y hyls).1 hle (by have := hreach.1; omega)
        · by_cases hyk : y.keyed = true
          · rcases h.frees y hyls hyk with h | h
            · rw [h] at a; cases a
            · rw [b] at h; cases h
          · simpa using hyk
      · exact .inl hy0
    · rename_i h0
      have := hr.1
      rw [hpd.level] at h0
      omega
  have hck : c.keyed = false := h.unkeyed _ _ _ _ hpd
  obtain ⟨A, B, e1, e2, e3, e4, e5⟩ := layout_marked (pre := pre) hpd.opens hck hpost
  rw [← hpd.eq] at e1 e3
  have hcol : c.pos.column ≤ x.pos.column := by
    rw [hp]
    exact pos_column_le (h.place c hmem).1 hpos (h.place c hmem).2 hreach.1
  have hxl : x.level = c.level := by rw [hl, hpd.level]
  have hin : ∀ cols, (c.level = 0 → indentOf cols ≤ c.pos.column) → x.closing cols = [] ∧ x.within cols = cols := fun cols hi =>
    within_le fun h0 => by have := hi (by omega); omega
  obtain ⟨w1, w2⟩ := hin (openBlocks [] ls) (by rw [e3]; exact within_indent)
  have hi : s.indent = indentOf (openBlocks [] ls) := by rw [← w2]; exact indent_eq h.cols
  have htk := h.toks
  rw [w1, List.append_nil, e1, ← List.cons_append] at htk
  have hcs := h.cols
  rw [w2] at hcs
  have hnum' : (S :: A).length = k.tokenNumber := by rw [hnum]; simpa using e2
  unfold Scanner.insertKey at hs
  cases hi1 : s.insert k.tokenNumber { data := .key, start := k.mark, stop := k.mark } with
  | error er => rw [hi1] at hs; cases hs
  | ok s1 =>
    rw [hi1] at hs
    obtain ⟨t1, q1⟩ := insert_ok hi1 h.parsed htk hnum'
    obtain ⟨tk, rfl⟩ : ∃ tk, s1 = { s with tokens := tk } := ⟨_, q1⟩
    clear q1
    simp only at hs
    generalize hq1 : ({ s with tokens := tk } : Scanner) = s1 at *
    have q1 : s1.tokensParsed = s.tokensParsed ∧ s1.flowLevel = s.flowLevel ∧ s1.indent = s.indent ∧ s1.indents = s.indents := by
      rw [← hq1]; exact ⟨rfl, rfl, rfl, rfl⟩
    cases hr : s1.rollIndent k.mark.column (some k.tokenNumber) .blockMappingStart k.mark with
    | error er => rw [hr] at hs; cases hs
    | ok s2 =>
      rw [hr] at hs
      simp only at hs
      cases hs
      -- after the tokens of the key have been put in
      have hs2 : D ++ s2.tokens = S :: layout [] (pre ++ { c with keyed := true } :: post) ∧
          s2.indent :: s2.indents = (openBlocks [] (pre ++ { c with keyed := true } :: post)).map Int.ofNat ++ [-1] ∧
          s2 = { s with tokens := s2.tokens, indent := s2.indent, indents := s2.indents } := by
        rw [e4, e5]
        unfold Scanner.rollIndent at hr
        have hfl : s1.flowLevel = c.level := by rw [q1.2.1, hpd.level]
        have hind : s1.indent = indentOf (c.within (openBlocks [] pre)) := by rw [q1.2.2.1, ← e3]; exact hi
        rw [hfl, hind, hmk] at hr
        by_cases h0 : c.level = 0
        · rw [if_neg (by simpa using h0)] at hr
          by_cases hlt : indentOf (c.within (openBlocks [] pre)) < c.pos.column
          · rw [if_pos hlt] at hr
            split at hr
            · cases hr
            · obtain ⟨t2, q2⟩ := insert_ok (D := D) hr (by rw [← h.parsed]; exact q1.1) t1 hnum'
              refine ⟨?_, ?_, ?_⟩
              · rw [t2]
                simp [keyToks', h0, hlt, hmk]
              · rw [q2]
                simp only [h0, hlt, and_self, if_true]
                show (c.pos.column : Int) :: indentOf (c.within (openBlocks [] pre)) :: s1.indents = _
                rw [← e3, List.map_cons, List.cons_append, ← hcs, hi, ← q1.2.2.2]
                rfl
              · rw [q2, ← hq1, ← hpd.level]
          · rw [if_neg hlt] at hr
            cases hr
            refine ⟨?_, ?_, ?_⟩
            · rw [t1]
              simp [keyToks', hlt, hmk]
            · simp only [hlt, and_false, if_false]
              rw [← e3, ← hcs, q1.2.2.1, q1.2.2.2]
            · rw [← hq1]
        · rw [if_pos h0] at hr
          cases hr
          refine ⟨?_, ?_, ?_⟩
          · rw [t1]
            simp [keyToks', h0, hmk]
          · simp only [h0, false_and, if_false]
            rw [← e3, ← hcs, q1.2.2.1, q1.2.2.2]
          · rw [← hq1]
      obtain ⟨f1, f2, f3⟩ := hs2
      obtain ⟨v1, v2⟩ := hin (openBlocks [] (pre ++ { c with keyed := true } :: post)) (by
        rw [e5]
        intro h0
        split
        · simp [indentOf]
        · exact within_indent h0)
      have hb : x.begins = none := by
        unfold Lx.begins
        split
        · simp only [hd]
        · rfl
      have hbody : ∀ cols, x.body cols = [x.token] ∧ x.leaves cols = cols := by
        intro cols
        unfold Lx.body Lx.leaves
        rw [opening_none hb, hd]
        simp [endsBlocks]
      have hkeys : s2.keys = s.keys := by rw [f3]
      have hnew : ∀ v pre' l' post', Pending (pre ++ { c with keyed := true } :: post ++ [x]) v pre' l' post' →
          ∃ post'', Pending ls v pre' l' post'' := by
        intro v pre' l' post' hpd'
        rcases pending_snoc.mp hpd' with ⟨_, _, _, _, _, h⟩ | ⟨p, _, h', hv, hv'⟩
        · rw [hd] at h; cases h
        · have hlt : v < x.level := by
            rcases Nat.lt_or_eq_of_le hv with h | h
            · exact h
            · have := (hv' h.symm).1
              rw [hd] at this
              cases this
          obtain ⟨p, q, _, h2, _⟩ := (pending_marked hpd (by omega)).mp h'
          exact ⟨_, h2⟩
      refine ⟨pre, c, post, hpd, hreach, rfl, by rw [f3], by rw [f3], ?_⟩
      subst ht
      refine ⟨?_, ?_, ?_, ?_, ?_, ?_, ?_, ?_, ?_⟩
      · show D ++ (s2.tokens ++ [x.token]) = _
        rw [← List.append_assoc, f1, (layout_snoc v1 v2 hbody).1]
        simp
      · show s2.indent :: s2.indents = _
        rw [f2, (layout_snoc v1 v2 hbody).2]
      · show ({ k with possible := false } :: s2.keys.tail).length = s2.flowLevel + 1
        rw [hkeys, hk, f3]
        simp [hlen]
      · show s2.tokensParsed = _
        rw [f3, h.parsed]
      · show OnLevels _ ({ k with possible := false } :: s2.keys.tail)
        rw [hkeys, hk]
        have htl : (k :: ks).tail = ks := rfl
        rw [htl]
        refine ⟨keyFit_none rfl ?_, ?_⟩
        · intro pre' l' post'
          exact pending_ended (by omega) (by rw [hd]; rfl)
        · refine OnLevels.mono hfk.2 fun v k' hv hk' => ?_
          refine (KeyFit.later ?_ hm)
          unfold KeyFit at hk' ⊢
          split
          · rename_i hp'
            rw [if_pos hp'] at hk'
            obtain ⟨pre', l', post', a1, a2⟩ := hk'
            obtain ⟨p, rfl, hpp⟩ := pending_front hpd a1 (by omega)
            refine ⟨pre', l', p ++ { c with keyed := true } :: post ++ [x], ?_, a2⟩
            refine pending_snoc.mpr (.inr ⟨_, rfl, (pending_marked hpd (by omega)).mpr ⟨p, post, rfl, a1, rfl, hpp⟩, by omega, by omega⟩)
          · rename_i hp'
            rw [if_neg hp'] at hk'
            intro pre' l' post' a1
            obtain ⟨p, a2⟩ := hnew _ _ _ _ a1
            exact hk' _ _ _ a2
      · have hpl : ∀ y ∈ ls, IsPos T y.pos ∧ y.pos.index ≤ m'.index := fun y hy =>
          ⟨(h.place y hy).1, Nat.le_trans (h.place y hy).2 hm.1⟩
        intro y hy
        simp only [List.append_assoc, List.cons_append, List.mem_append, List.mem_cons, List.not_mem_nil, or_false] at hy
        rcases hy with hy | rfl | hy | rfl
        · exact hpl y (by rw [hpd.eq]; simp [hy])
        · exact hpl c hmem
        · exact hpl y (by rw [hpd.eq]; simp [hy])
        · rw [hp]; exact ⟨hpos, hm.1⟩
      · have ho := h.order
        have hpl : ∀ y ∈ ls, y.pos.index ≤ x.pos.index := fun y hy => by rw [hp]; exact (h.place y hy).2
        rw [hpd.eq] at ho hpl
        refine List.pairwise_append.mpr ⟨?_, by simp, ?_⟩
        · rw [List.pairwise_append, List.pairwise_cons] at ho ⊢
          refine ⟨ho.1, ⟨ho.2.1.1, ho.2.1.2⟩, fun a ha b hb => ?_⟩
          rcases List.mem_cons.mp hb with rfl | hb
          · exact ho.2.2 a ha c (by simp)
          · exact ho.2.2 a ha b (by simp [hb])
        · intro a ha b hb
          simp at hb
          subst hb
          rcases List.mem_append.mp ha with ha | ha
          · exact hpl a (by simp [ha])
          · rcases List.mem_cons.mp ha with rfl | ha
            · exact hpl c (by simp)
            · exact hpl a (by simp [ha])
      · intro y hy
        simp only [List.append_assoc, List.cons_append, List.mem_append, List.mem_cons, List.not_mem_nil, or_false] at hy
        rcases hy with hy | rfl | hy | rfl
        · exact h.frees y (by rw [hpd.eq]; simp [hy])
        · exact fun _ => .inr hpd.free
        · exact h.frees y (by rw [hpd.eq]; simp [hy])
        · exact fun _ => .inl hd
      · intro v pre' l' post' a1
        obtain ⟨p, a2⟩ := hnew _ _ _ _ a1
        exact h.unkeyed _ _ _ _ a2

end LibYaml
