import Verif.Proofs.Boundary

/-!
# One token

What each fetcher does to what matters of the state of the scanner.
-/
namespace LibYaml
open Spec

variable {C : Cx}

/-- The action takes a state that shows `v` to one that shows `v'`, at the position `u`. -/
def Moves (g : Scanner → Except Fail Scanner) (u : Text) (v v' : View) : Prop :=
  ∀ s, s.mark = markOf u → s.tokensParsed = 0 → Sees v s → ∃ s', g s = .ok s' ∧ s'.mark = s.mark ∧ s'.tokensParsed = 0 ∧ Sees v' s'

/-- A program of the scanner takes `v` to `v'` and reads the text `t` up to `t'`. -/
def Does (p : SM Unit) (u t t' : Text) (v v' : View) : Prop :=
  ∀ s, s.mark = markOf u → s.tokensParsed = 0 → Sees v s → lw p (fun _ s' cs' => cs' = t' ∧ Sees v' s') s t

theorem Moves.does {g : Scanner → Except Fail Scanner} {p : SM Unit} {u t t' : Text} {v v1 v2 : View} (h : Moves g u v v1) (hp : Does p u t t' v1 v2) :
    Does (do LibYaml.act g; p) u t t' v v2 := by
  intro s h1 h2 h3
  obtain ⟨s', e1, e2, e3, e4⟩ := h s h1 h2 h3
  rw [lw_bind, lw_act e1]
  exact hp s' (e2.trans h1) e3 e4

/-! ### The views -/

def View.push (d : TokData) (v : View) : View := { v with ds := v.ds ++ [d] }

def View.allow (b : Bool) (v : View) : View := { v with al := b }

/-- The simple key of the current level. -/
def View.key (a : KS) (v : View) : View := { v with ks := a :: v.ks.tail }

def View.save (u : Text) (v : View) : View :=
  if v.al = true then v.key (.on v.ds.length u (v.flow == 0 && v.ind == (lastColumn u : Nat))) else v

/-- A block collection begins. -/
def View.start (u : Text) (d : TokData) (v : View) : View :=
  if v.flow = 0 ∧ v.ind < (lastColumn u : Nat) then { v with ds := v.ds ++ [d], ind := (lastColumn u : Nat), inds := v.ind :: v.inds } else v

/-- The simple key of the current level may be dropped. -/
def View.Free (v : View) : Prop := ∃ a as, v.ks = a :: as ∧ a.free

theorem moves_allow {u : Text} {v : View} {b : Bool} : Moves (Scanner.allow b) u v (v.allow b) :=
  fun _ _ h2 h3 => ⟨_, rfl, rfl, h2, h3.ds, h3.ind, h3.inds, h3.flow, rfl, h3.ks⟩

theorem KS.Ok.dropped {a : KS} {k : SimpleKey} (h : a.Ok k) (hf : a.free) : (k.possible && k.required) = false := by
  cases a with
  | off => rw [show k.possible = false from h]; rfl
  | calm l =>
    cases hp : k.possible with
    | false => rfl
    | true => rw [(h hp).1]; rfl
  | on n w r =>
    cases r with
    | true => exact absurd hf (by simp [KS.free])
    | false => rw [show k = _ from h]; rfl

theorem KeysOk.cons {a : KS} {as : List KS} {ks : List SimpleKey} (h : KeysOk (a :: as) ks) : ∃ k ks', ks = k :: ks' ∧ a.Ok k ∧ KeysOk as ks' := by
  cases ks with
  | nil => exact h.elim
  | cons k ks' => exact ⟨k, ks', rfl, h.1, h.2⟩

theorem moves_remove {u : Text} {v : View} (hf : v.Free) : Moves Scanner.removeKey u v (v.key .off) := by
  intro s h1 h2 h3
  obtain ⟨a, as, e, hf⟩ := hf
  have hk := h3.ks
  rw [e] at hk
  obtain ⟨k, ks, ek, hk1, hk2⟩ := hk.cons
  refine ⟨{ s with keys := { k with possible := false } :: ks }, ?_, rfl, h2, h3.ds, h3.ind, h3.inds, h3.flow, h3.al, ?_⟩
  · unfold Scanner.removeKey
    rw [ek]
    show (if (k.possible && k.required) = true then _ else _) = _
    rw [hk1.dropped hf]; rfl
  · show KeysOk (.off :: v.ks.tail) _
    rw [e]
    exact ⟨rfl, hk2⟩

theorem moves_save {u : Text} {v : View} (hf : v.al = true → v.Free) : Moves Scanner.saveKey u v (v.save u) := by
  intro s h1 h2 h3
  unfold View.save Scanner.saveKey
  rw [h3.al]
  cases hal : v.al with
  | false => exact ⟨s, rfl, rfl, h2, h3⟩
  | true =>
    obtain ⟨s1, e1, e2, e3, e4⟩ := moves_remove (u := u) (hf hal) s h1 h2 h3
    obtain ⟨k, ks, ek, hk1, hk2⟩ := KeysOk.cons (show KeysOk (.off :: v.ks.tail) s1.keys from e4.ks)
    simp only [if_true, e1, ek]
    refine ⟨_, rfl, e2, e3, e4.ds, e4.ind, e4.inds, e4.flow, e4.al, ?_, hk2⟩
    have hds : s1.tokens.length = v.ds.length := by
      have : v.ds = s1.tokens.map Token.data := e4.ds.symm
      rw [this, List.length_map]
    have hfl : s1.flowLevel = v.flow := e4.flow
    have hin : s1.indent = v.ind := e4.ind
    show _ = _
    rw [e3, hds, hfl, hin, e2, h1, Nat.zero_add]
    rfl

theorem moves_increase {u : Text} {v : View} (hf : v.flow < maxInt) : Moves Scanner.increaseFlow u v { v with ks := .off :: v.ks, flow := v.flow + 1 } := by
  intro s h1 h2 h3
  refine ⟨{ s with keys := {} :: s.keys, flowLevel := s.flowLevel + 1 }, ?_, rfl, h2, h3.ds, h3.ind, h3.inds, by show s.flowLevel + 1 = _; rw [h3.flow], h3.al, rfl, h3.ks⟩
  unfold Scanner.increaseFlow
  rw [if_neg (by rw [h3.flow]; omega)]

theorem moves_decrease {u : Text} {v : View} {l : Nat} (hf : v.flow = l + 1) (hk : v.ks ≠ []) : Moves Scanner.decreaseFlow u v { v with ks := v.ks.tail, flow := l } := by
  intro s h1 h2 h3
  obtain ⟨a, as, e⟩ : ∃ a as, v.ks = a :: as := by
    cases h : v.ks with
    | nil => exact absurd h hk
    | cons a as => exact ⟨a, as, rfl⟩
  have hk := h3.ks
  rw [e] at hk
  obtain ⟨k, ks, ek, hk1, hk2⟩ := hk.cons
  refine ⟨{ s with keys := ks, flowLevel := l }, ?_, rfl, h2, h3.ds, h3.ind, h3.inds, rfl, h3.al, ?_⟩
  · unfold Scanner.decreaseFlow
    rw [h3.flow, hf, ek]
  · rw [e]; exact hk2

theorem moves_roll {u w : Text} {v : View} {d : TokData} (hc : lastColumn w ≤ maxInt) :
    Moves (Scanner.rollIndent (lastColumn w) none d (markOf w)) u v (v.start w d) := by
  intro s h1 h2 h3
  unfold Scanner.rollIndent View.start
  rw [h3.flow, h3.ind]
  by_cases hf : v.flow = 0
  · by_cases hi : v.ind < (lastColumn w : Nat)
    · rw [if_neg (by omega), if_pos hi, if_neg (by omega), if_pos ⟨hf, hi⟩]
      refine ⟨_, rfl, rfl, h2, ?_, rfl, ?_, h3.flow.symm ▸ rfl, h3.al, h3.ks⟩
      · show (s.tokens ++ [_]).map Token.data = _
        rw [List.map_append, h3.ds]; rfl
      · show v.ind :: s.indents = _
        rw [h3.inds]
    · rw [if_neg (by omega), if_neg hi, if_neg (fun h => hi h.2)]
      exact ⟨s, rfl, rfl, h2, h3⟩
  · rw [if_pos hf, if_neg (fun h => hf h.1)]
    exact ⟨s, rfl, rfl, h2, h3⟩

theorem moves_startBlock {u : Text} {v : View} {d : TokData} {x : String} (hc : lastColumn u ≤ maxInt) (ha : v.flow = 0 → v.al = true) :
    Moves (startBlock d x) u v (v.start u d) := by
  intro s h1 h2 h3
  unfold startBlock
  rw [h3.flow, h3.al]
  by_cases hf : v.flow = 0
  · rw [if_pos hf, ha hf, if_pos rfl]
    obtain ⟨s', a, b, c, e⟩ := moves_roll (u := u) (d := d) hc s h1 h2 h3
    exact ⟨s', by rw [h1]; exact a, b, c, e⟩
  · rw [if_neg hf]
    refine ⟨s, rfl, rfl, h2, ?_⟩
    unfold View.start
    rw [if_neg (fun h => hf h.1)]
    exact h3

theorem moves_unroll {u : Text} {v : View} {c : Int} (hc : -1 ≤ c) (hn : v.Nested) : Moves (Scanner.unrollIndent c) u v (v.unroll c) := by
  intro s h1 h2 h3
  obtain ⟨s', e1, e2, e3, e4, _⟩ := sees_unroll hc h3 hn
  exact ⟨s', e1, e3, e4.trans h2, e2⟩

/-- The tokens in front of a simple key. -/
def View.insertKey (n : Nat) (w : Text) (v : View) : View :=
  { v with
    ds := v.ds.take n ++ (if v.flow = 0 ∧ v.ind < (lastColumn w : Nat) then [.blockMappingStart, .key] else [.key]) ++ v.ds.drop n
    ind := if v.flow = 0 ∧ v.ind < (lastColumn w : Nat) then (lastColumn w : Nat) else v.ind
    inds := if v.flow = 0 ∧ v.ind < (lastColumn w : Nat) then v.ind :: v.inds else v.inds
    ks := .off :: v.ks.tail
    al := false }

theorem moves_insertKey {u w : Text} {v : View} {n : Nat} {r : Bool} {as : List KS} (hk : v.ks = .on n w r :: as) (hn : n ≤ v.ds.length) (hc : lastColumn w ≤ maxInt) :
    Moves valueKey u v (v.insertKey n w) := by
  intro s h1 h2 h3
  have hks := h3.ks
  rw [hk] at hks
  obtain ⟨k, ks, ek, hk1, hk2⟩ := hks.cons
  have hk1 : k = { possible := true, required := r, tokenNumber := n, mark := markOf w } := hk1
  have hlen : s.tokens.length = v.ds.length := by rw [← h3.ds, List.length_map]
  have e1 : s.insert n { data := .key, start := markOf w, stop := markOf w } =
      .ok { s with tokens := s.tokens.take n ++ { data := .key, start := markOf w, stop := markOf w } :: s.tokens.drop n } := by
    unfold Scanner.insert
    rw [h2, if_neg (by omega), Nat.sub_zero]
  unfold valueKey
  rw [ek]
  show ∃ s', (if k.possible = true then s.insertKey k else _) = _ ∧ _
  rw [hk1]
  simp only [if_true]
  unfold Scanner.insertKey
  simp only [e1]
  unfold Scanner.rollIndent
  have eflow := h3.flow
  have eind := h3.ind
  by_cases hf : v.flow = 0 ∧ v.ind < (lastColumn w : Nat)
  · have hfl : s.flowLevel = 0 := by rw [eflow]; exact hf.1
    have hin : s.indent < ((markOf w).column : Nat) := by rw [eind]; exact hf.2
    have hcol : ¬ (markOf w).column > maxInt := by show ¬ lastColumn w > maxInt; omega
    simp only [hfl, ne_eq, not_true, if_false, hin, if_true, hcol]
    unfold Scanner.insert
    simp only [h2, Nat.not_lt_zero, false_or, Nat.sub_zero, List.length_append, List.length_take, List.length_cons, List.length_drop]
    rw [if_neg (by omega)]
    refine ⟨_, rfl, rfl, rfl, ?_, ?_, ?_, hf.1.symm, rfl, rfl, ?_⟩
    · show List.map Token.data (List.take n (List.take n s.tokens ++ _) ++ _ :: List.drop n (List.take n s.tokens ++ _)) = (View.insertKey n w v).ds
      have ht : (List.take n s.tokens).length = n := by rw [List.length_take]; omega
      rw [List.take_left' ht, List.drop_left' ht]
      unfold View.insertKey
      simp only [if_pos hf, ← h3.ds, List.map_append, List.map_cons, List.map_take, List.map_drop]
      simp
    · show (_ : Int) = (View.insertKey n w v).ind
      unfold View.insertKey
      simp only [if_pos hf]; rfl
    · show s.indent :: s.indents = (View.insertKey n w v).inds
      unfold View.insertKey
      simp only [if_pos hf, eind, h3.inds]
    · show KeysOk v.ks.tail s.keys.tail
      rw [hk, ek]; exact hk2
  · have hroll : ∀ (X : Scanner) (Y : Except Fail Scanner), X.flowLevel = s.flowLevel → X.indent = s.indent →
        (if X.flowLevel ≠ 0 then Except.ok X else if X.indent < ((markOf w).column : Nat) then Y else Except.ok X) = .ok X := by
      intro X Y h1 h2
      split
      · rfl
      · next h =>
        rw [if_neg]
        rw [h2, eind]
        intro h'
        exact hf ⟨by rw [← eflow, ← h1]; omega, h'⟩
    rw [hroll { s with tokens := s.tokens.take n ++ { data := .key, start := markOf w, stop := markOf w } :: s.tokens.drop n } _ rfl rfl]
    refine ⟨_, rfl, rfl, h2, ?_, ?_, ?_, eflow, rfl, rfl, ?_⟩
    · show List.map Token.data (List.take n s.tokens ++ _ :: List.drop n s.tokens) = (View.insertKey n w v).ds
      unfold View.insertKey
      simp only [if_neg hf, ← h3.ds, List.map_append, List.map_cons, List.map_take, List.map_drop]
      simp
    · show s.indent = (View.insertKey n w v).ind
      unfold View.insertKey
      simp only [if_neg hf, eind]
    · show s.indents = (View.insertKey n w v).inds
      unfold View.insertKey
      simp only [if_neg hf, h3.inds]
    · show KeysOk v.ks.tail s.keys.tail
      rw [hk, ek]; exact hk2

/-- A value whose key is not simple. -/
theorem moves_valueKey {u : Text} {v : View} {as : List KS} (hk : v.ks = .off :: as) (hc : lastColumn u ≤ maxInt) (ha : v.flow = 0 → v.al = true) :
    Moves valueKey u v ((v.start u .blockMappingStart).allow (v.flow == 0)) := by
  intro s h1 h2 h3
  have hks := h3.ks
  rw [hk] at hks
  obtain ⟨k, ks, ek, hk1, hk2⟩ := hks.cons
  unfold valueKey
  rw [ek]
  show ∃ s', (if k.possible = true then s.insertKey k else _) = _ ∧ _
  rw [show k.possible = false from hk1]
  obtain ⟨s1, e1, e2, e3, e4⟩ := moves_startBlock (d := .blockMappingStart) (x := "mapping values are not allowed in this context") hc ha s h1 h2 h3
  simp only [Bool.false_eq_true, if_false, e1]
  have hfl : s1.flowLevel = v.flow := by rw [e4.flow]; unfold View.start; split <;> rfl
  obtain ⟨s2, g1, g2, g3, g4⟩ := moves_allow (u := u) (b := v.flow == 0) s1 (e2.trans h1) e3 e4
  exact ⟨s2, by rw [hfl]; exact g1, g2.trans e2, g3, g4⟩

/-! ### The fetchers -/

theorem lw_enqueue {v : View} {s : Scanner} {t : Text} {tok : Token} (h : Sees v s) :
    lw (act (Scanner.enqueue tok)) (fun _ s' cs' => cs' = t ∧ Sees (v.push tok.data) s') s t := by
  rw [lw_act (g := Scanner.enqueue tok) (s := s) (s' := { s with tokens := s.tokens ++ [tok] }) rfl]
  refine ⟨rfl, ?_, h.ind, h.inds, h.flow, h.al, h.ks⟩
  show (s.tokens ++ [tok]).map Token.data = _
  rw [List.map_append, h.ds]; rfl

theorem Sees.mark {v : View} {s : Scanner} {m : Mark} (h : Sees v s) : Sees v { s with mark := m } :=
  ⟨h.ds, h.ind, h.inds, h.flow, h.al, h.ks⟩

theorem does_indicator {u t t' : Text} {v : View} {n : Nat} {d : TokData} (hl : t.length = n) :
    Does (fetchIndicator n d) u (t ++ t') t' v (v.push d) := by
  intro s h1 h2 h3
  unfold fetchIndicator
  rw [lw_bind, lw_get, lw_bind, lw_lex]
  refine lw_skipN hl ?_
  rw [lw_bind, lw_get]
  exact lw_enqueue h3.mark

theorem does_push {x : Lex Token} {u t t' : Text} {v : View} {d : TokData}
    (h : lw x (fun tok _ cs => tok.data = d ∧ cs = t') (markOf u) t) :
    Does (do let t ← lex x; act (Scanner.enqueue t)) u t t' v (v.push d) := by
  intro s h1 h2 h3
  rw [lw_bind, lw_lex, h1]
  refine lw_mono h ?_
  rintro tok m cs ⟨rfl, rfl⟩
  exact lw_enqueue h3.mark

theorem does_get {p : Scanner → SM Unit} {u t t' : Text} {v v' : View}
    (h : ∀ s, Sees v s → Does (p s) u t t' v v') : Does (do let s ← get; p s) u t t' v v' := by
  intro s h1 h2 h3
  rw [lw_bind, lw_get]
  exact h s h3 s h1 h2 h3

/-! ### Which token -/

/-- The scanner finds a token of this kind at this place. -/
def Finds (flow : Bool) (u t : Text) (kind : Kind) : Prop :=
  lw (dispatch flow) (fun k m cs => k = kind ∧ m = markOf u ∧ cs = t) (markOf u) t

/-- The text ends as texts of the scanner do. -/
theorem Raw.ends {v : View} {u t : Text} (h : Raw C v u t) : t.getLast? = some 0 := by
  obtain ⟨n, s, i, _, h2, h3, _, _⟩ := h
  rw [← h3]
  exact h2.base.pos.ends rfl

theorem finds_char {flow : Bool} {u r : Text} {c : Nat} {kind : Kind} (hz : (c :: r).getLast? = some 0) (h0 : c ≠ 0) (h1 : c ≠ 37) (h2 : c ≠ 45)
    (h3 : c ≠ 46) (hk : dispatchChar flow c = pure kind) : Finds flow u (c :: r) kind := by
  refine lw_dispatch_char hz h0 h1 h2 h3 ?_
  rw [hk, lw_pure]
  exact ⟨rfl, rfl, rfl⟩

theorem finds_flowStart {flow : Bool} {u r : Text} {d : TokData} {c : Nat} (hz : (c :: r).getLast? = some 0)
    (h : (c = 91 ∧ d = .flowSequenceStart) ∨ (c = 123 ∧ d = .flowMappingStart)) : Finds flow u (c :: r) (.flowStart d) := by
  rcases h with ⟨rfl, rfl⟩ | ⟨rfl, rfl⟩ <;> exact finds_char hz (by decide) (by decide) (by decide) (by decide) rfl

theorem finds_flowEnd {flow : Bool} {u r : Text} {d : TokData} {c : Nat} (hz : (c :: r).getLast? = some 0)
    (h : (c = 93 ∧ d = .flowSequenceEnd) ∨ (c = 125 ∧ d = .flowMappingEnd)) : Finds flow u (c :: r) (.flowEnd d) := by
  rcases h with ⟨rfl, rfl⟩ | ⟨rfl, rfl⟩ <;> exact finds_char hz (by decide) (by decide) (by decide) (by decide) rfl

theorem finds_flowEntry {flow : Bool} {u r : Text} (hz : (44 :: r).getLast? = some 0) : Finds flow u (44 :: r) .flowEntry :=
  finds_char hz (by decide) (by decide) (by decide) (by decide) rfl

theorem finds_anchor {flow : Bool} {u r : Text} {a : Bool} (hz : ((if a = true then 38 else 42) :: r).getLast? = some 0) :
    Finds flow u ((if a = true then 38 else 42) :: r) (.anchor a) := by
  cases a <;> exact finds_char hz (by decide) (by decide) (by decide) (by decide) rfl

theorem finds_tag {flow : Bool} {u r : Text} (hz : (33 :: r).getLast? = some 0) : Finds flow u (33 :: r) .tag :=
  finds_char hz (by decide) (by decide) (by decide) (by decide) rfl

theorem finds_key {flow : Bool} {u r : Text} {d : Nat} (hz : (63 :: d :: r).getLast? = some 0) (hd : isBlankz d = true) :
    Finds flow u (63 :: d :: r) .key := by
  refine lw_dispatch_char hz (by decide) (by decide) (by decide) (by decide) ?_
  cases flow with
  | true => exact ⟨rfl, rfl, rfl⟩
  | false =>
    show lw (do return if isBlankz (← peekC 1) then Kind.key else .plain) _ _ _
    rw [lw_bind, lw_peek1 (by decide), hd, lw_pure]
    exact ⟨rfl, rfl, rfl⟩

theorem finds_value {flow : Bool} {u r : Text} {d : Nat} (hz : (58 :: d :: r).getLast? = some 0) (hd : isBlankz d = true) :
    Finds flow u (58 :: d :: r) .value := by
  refine lw_dispatch_char hz (by decide) (by decide) (by decide) (by decide) ?_
  cases flow with
  | true => exact ⟨rfl, rfl, rfl⟩
  | false =>
    show lw (do return if isBlankz (← peekC 1) then Kind.value else .plain) _ _ _
    rw [lw_bind, lw_peek1 (by decide), hd, lw_pure]
    exact ⟨rfl, rfl, rfl⟩

theorem finds_entry {flow : Bool} {u r : Text} {d : Nat} (hz : (45 :: d :: r).getLast? = some 0) (hd : isBlankz d = true) :
    Finds flow u (45 :: d :: r) .blockEntry := by
  have hd45 : d ≠ 45 := by rintro rfl; exact absurd hd (by decide)
  unfold Finds dispatch
  rw [lw_bind, lw_peek0, lw_bind, lw_get, lw_ite, if_neg (by decide), lw_ite, if_neg (by rintro ⟨_, h⟩; exact absurd h (by decide)), lw_bind]
  refine lw_docMark_false (by decide) hz (by simp [List.isPrefixOf, Ne.symm hd45]) ?_
  rw [lw_ite, if_neg (by decide), lw_bind]
  refine lw_docMark_false (by decide) hz (by simp [List.isPrefixOf]) ?_
  rw [lw_ite, if_neg (by decide)]
  show lw (do return if isBlankz (← peekC 1) then Kind.blockEntry else .plain) _ _ _
  rw [lw_bind, lw_peek1 (by decide), hd, lw_pure]
  exact ⟨rfl, rfl, rfl⟩

theorem finds_end {flow : Bool} {u r : Text} : Finds flow u (0 :: r) .streamEnd := by
  unfold Finds dispatch
  rw [lw_bind, lw_peek0, lw_bind, lw_get, lw_ite, if_pos (by decide), lw_pure]
  exact ⟨rfl, rfl, rfl⟩

theorem finds_directive {flow : Bool} {u r : Text} (h : lastColumn u = 0) : Finds flow u (37 :: r) .directive := by
  unfold Finds dispatch
  rw [lw_bind, lw_peek0, lw_bind, lw_get, lw_ite, if_neg (by decide), lw_ite, if_pos ⟨h, by decide⟩, lw_pure]
  exact ⟨rfl, rfl, rfl⟩

theorem finds_documentStart {flow : Bool} {u r : Text} {d : Nat} (h : lastColumn u = 0) (hz : (45 :: 45 :: 45 :: d :: r).getLast? = some 0)
    (hd : isBlankz d = true) : Finds flow u (45 :: 45 :: 45 :: d :: r) .documentStart := by
  unfold Finds dispatch
  rw [lw_bind, lw_peek0, lw_bind, lw_get, lw_ite, if_neg (by decide), lw_ite, if_neg (by rintro ⟨_, h⟩; exact absurd h (by decide)), lw_bind]
  unfold docMark
  rw [lw_bind, lw_get, lw_ite, if_pos (show (markOf u).column = 0 from h), lw_bind]
  refine lw_checkSeq (pre := []) rfl (by simp) (by simp) hz ?_
  rw [show ([45, 45, 45] : Text).isPrefixOf (45 :: 45 :: 45 :: d :: r) = true by simp [List.isPrefixOf], lw_ite, if_pos rfl, lw_bind]
  refine (lw_peekAt (pre := [45, 45, 45]) rfl (by simp)).mpr ?_
  rw [lw_pure, hd, lw_ite, if_pos rfl, lw_pure]
  exact ⟨rfl, rfl, rfl⟩

theorem finds_documentEnd {flow : Bool} {u r : Text} {d : Nat} (h : lastColumn u = 0) (hz : (46 :: 46 :: 46 :: d :: r).getLast? = some 0)
    (hd : isBlankz d = true) : Finds flow u (46 :: 46 :: 46 :: d :: r) .documentEnd := by
  unfold Finds dispatch
  rw [lw_bind, lw_peek0, lw_bind, lw_get, lw_ite, if_neg (by decide), lw_ite, if_neg (by rintro ⟨_, h⟩; exact absurd h (by decide)), lw_bind]
  refine lw_docMark_false (by decide) hz (by simp [List.isPrefixOf]) ?_
  rw [lw_ite, if_neg (by decide), lw_bind]
  unfold docMark
  rw [lw_bind, lw_get, lw_ite, if_pos (show (markOf u).column = 0 from h), lw_bind]
  refine lw_checkSeq (pre := []) rfl (by simp) (by simp) hz ?_
  rw [show ([46, 46, 46] : Text).isPrefixOf (46 :: 46 :: 46 :: d :: r) = true by simp [List.isPrefixOf], lw_ite, if_pos rfl, lw_bind]
  refine (lw_peekAt (pre := [46, 46, 46]) rfl (by simp)).mpr ?_
  rw [lw_pure, hd, lw_ite, if_pos rfl, lw_pure]
  exact ⟨rfl, rfl, rfl⟩

/-! ### From token to token -/

theorem Bd.ends {X : View} {u t : Text} (h : Bd C X u t) (ht : t ≠ []) : t.getLast? = some 0 := by
  obtain ⟨n, s, i, _, h2, h3, _⟩ := h
  obtain ⟨u', hp, _⟩ := h2.base.pos.path
  have he := h2.base.pos.ends rfl
  have : C.T.getLast? = some 0 := by rw [hp, List.getLast?_append, he]; rfl
  rw [h3, List.getLast?_append] at this
  cases hl : t.getLast? with
  | none => exact absurd (List.getLast?_eq_none_iff.mp hl) ht
  | some x => rw [hl] at this; exact this

theorem Bd.nested {X : View} {u t : Text} (h : Bd C X u t) : X.Nested := by
  obtain ⟨_, _, _, _, _, _, h, _⟩ := h
  exact h

theorem Bd.text {X : View} {u t : Text} (h : Bd C X u t) : C.T = u ++ t := by
  obtain ⟨_, _, _, _, _, h, _⟩ := h
  exact h

theorem Raw.text {v : View} {u t : Text} (h : Raw C v u t) : C.T = u ++ t := by
  obtain ⟨_, _, _, _, _, _, h, _⟩ := h
  exact h

theorem Raw.nested {v : View} {u t : Text} (h : Raw C v u t) : v.Nested := by
  obtain ⟨n, s, i, _, h2, _, _, h5⟩ := h
  have := h2.base.nested
  rw [h5.ind, h5.inds] at this
  exact this

theorem lastColumn_le (u : Text) : lastColumn u ≤ u.length := by
  unfold lastColumn
  have := (List.takeWhile_prefix (fun c => !isBreakChar c) (l := u.reverse)).length_le
  rwa [List.length_reverse] at this

theorem Bd.column {X : View} {u t w : Text} (h : Bd C X u t) (hw : w <+: u) : lastColumn w ≤ maxInt := by
  have h1 := C.short
  rw [h.text, List.length_append] at h1
  have h2 := lastColumn_le w
  have h3 := hw.length_le
  omega

/-- No block collection ends at this column. -/
def View.Flat (u : Text) (X : View) : Prop := X.unroll (lastColumn u) = X

theorem flat_of_le {u : Text} {X : View} (h : X.ind ≤ (lastColumn u : Nat)) : X.Flat u := View.unroll_id h

theorem flat_of_flow {u : Text} {X : View} (h : X.flow ≠ 0) : X.Flat u := View.unroll_flow h

theorem Bd.settle {X : View} {u t : Text} (h : Bd C X u t) : Bd C (X.unroll (lastColumn u)) u t :=
  h.congr (h.nested.unroll (by omega)) (View.unroll_twice (Int.le_refl _)).symm

theorem Bd.go {X v : View} {u w t' : Text} {kind : Kind} (h : Bd C X u (w ++ t')) (hx : X.Flat u) (hd : Finds (X.flow != 0) u (w ++ t') kind)
    (hk : Does (fetchKind C.f kind) u (w ++ t') t' X v) (hne : v.ds.getLast? ≠ some .streamEnd) (hB : v.depth ≤ C.B) : Raw C v (u ++ w) t' :=
  h.token (by rw [List.append_assoc]) hd (by rw [hx]; exact hk) hne hB

theorem push_last {d : TokData} {v : View} (h : d ≠ .streamEnd) : (v.push d).ds.getLast? ≠ some .streamEnd := by
  show (v.ds ++ [d]).getLast? ≠ _
  simp [h]

/-! #### Keys that need not be known -/

def KS.le (a b : KS) : Prop := ∀ k, a.Ok k → b.Ok k

theorem KS.le_refl (a : KS) : a.le a := fun _ h => h

theorem KS.on_le {n : Nat} {u : Text} : (KS.on n u false).le (.calm (lineBreaks u)) := by
  intro k h
  rw [show k = _ from h]
  exact fun _ => ⟨rfl, Nat.le_refl _⟩

theorem KS.calm_le {l l' : Nat} (h : l ≤ l') : (KS.calm l).le (.calm l') := fun _ h1 hp => ⟨(h1 hp).1, Nat.le_trans (h1 hp).2 h⟩

inductive KeysLe : List KS → List KS → Prop
  | nil : KeysLe [] []
  | cons {a b as bs} : a.le b → KeysLe as bs → KeysLe (a :: as) (b :: bs)

theorem KeysLe.refl (as : List KS) : KeysLe as as := by
  induction as with
  | nil => exact .nil
  | cons a as ih => exact .cons a.le_refl ih

theorem KeysOk.le {as bs : List KS} (hl : KeysLe as bs) : ∀ {ks : List SimpleKey}, KeysOk as ks → KeysOk bs ks := by
  induction hl with
  | nil => exact fun h => h
  | cons h _ ih =>
    intro ks hk
    obtain ⟨k, ks', rfl, h1, h2⟩ := hk.cons
    exact ⟨h k h1, ih h2⟩

theorem Raw.weaken {v : View} {u cs : Text} {ks : List KS} (h : Raw C v u cs) (hk : KeysLe v.ks ks) : Raw C { v with ks := ks } u cs := by
  obtain ⟨n, s, i, h1, h2, h3, h4, h5⟩ := h
  exact ⟨n, s, i, h1, h2, h3, h4, h5.ds, h5.ind, h5.inds, h5.flow, h5.al, h5.ks.le hk⟩

/-- The simple key of the current level is saved, and not looked at any more. -/
def View.touch (u : Text) (v : View) : View := if v.al = true then v.key (.calm (lineBreaks u)) else v

theorem View.save_frame (u : Text) (v : View) : (v.save u).ds = v.ds ∧ (v.save u).ind = v.ind ∧ (v.save u).inds = v.inds ∧ (v.save u).flow = v.flow ∧
    (v.save u).al = v.al := by
  unfold View.save View.key; split <;> exact ⟨rfl, rfl, rfl, rfl, rfl⟩

theorem View.touch_frame (u : Text) (v : View) : (v.touch u).ds = v.ds ∧ (v.touch u).ind = v.ind ∧ (v.touch u).inds = v.inds ∧ (v.touch u).flow = v.flow ∧
    (v.touch u).al = v.al := by
  unfold View.touch View.key; split <;> exact ⟨rfl, rfl, rfl, rfl, rfl⟩

theorem View.touch_eq (u : Text) (v : View) : v.touch u = { v.save u with ks := (v.touch u).ks } := by
  unfold View.save View.touch View.key; split <;> rfl

theorem save_le {u : Text} {v : View} (hr : v.flow = 0 → v.ind ≠ (lastColumn u : Nat)) : KeysLe (v.save u).ks (v.touch u).ks := by
  unfold View.save View.touch
  split
  · refine .cons ?_ (KeysLe.refl _)
    have : (v.flow == 0 && v.ind == (lastColumn u : Nat)) = false := by
      by_cases h : v.flow = 0
      · simp [hr h]
      · simp [h]
    rw [this]
    exact KS.on_le
  · exact KeysLe.refl _

/-! #### Indicators -/

/-- A flow collection begins. -/
def View.open (d : TokData) (v : View) : View := { v with ds := v.ds ++ [d], ks := .off :: v.ks, flow := v.flow + 1, al := true }

theorem Bd.flowStart {X : View} {u t : Text} {c : Nat} {d : TokData} (h : Bd C X u (c :: t)) (hx : X.Flat u)
    (hc : (c = 91 ∧ d = .flowSequenceStart) ∨ (c = 123 ∧ d = .flowMappingStart)) (hf : X.al = true → X.Free)
    (hB : X.depth < C.B) : Raw C ((X.save u).open d) (u ++ [c]) t := by
  obtain ⟨e1, e2, e3, e4, e5⟩ := X.save_frame u
  have hd : d ≠ .streamEnd := by rcases hc with ⟨_, rfl⟩ | ⟨_, rfl⟩ <;> simp
  refine h.go (w := [c]) hx (finds_flowStart (h.ends (by simp)) hc)
    ((moves_save hf).does ((moves_increase (by have := C.low; unfold View.depth at hB; rw [e4]; omega)).does (moves_allow.does (does_indicator rfl)))) (push_last hd) ?_
  unfold View.depth at hB ⊢
  show (X.save u).inds.length + ((X.save u).flow + 1) ≤ _
  rw [e3, e4]; omega

theorem Bd.flowEnd {X : View} {u t : Text} {c l : Nat} {d : TokData} (h : Bd C X u (c :: t)) (hx : X.Flat u)
    (hc : (c = 93 ∧ d = .flowSequenceEnd) ∨ (c = 125 ∧ d = .flowMappingEnd)) (hf : X.Free) (hl : X.flow = l + 1)
    (hB : X.depth ≤ C.B) : Raw C { X with ds := X.ds ++ [d], ks := X.ks.tail, flow := l, al := false } (u ++ [c]) t := by
  have hd : d ≠ .streamEnd := by rcases hc with ⟨_, rfl⟩ | ⟨_, rfl⟩ <;> simp
  refine h.go (w := [c]) hx (finds_flowEnd (h.ends (by simp)) hc)
    ((moves_remove hf).does ((moves_decrease (v := X.key .off) (l := l) hl (by simp [View.key])).does ((moves_allow (b := false)).does (does_indicator rfl)))) ?_ ?_
  · exact push_last (v := { X with ks := X.ks.tail, flow := l, al := false }) hd
  unfold View.depth at hB ⊢
  show X.inds.length + l ≤ _
  omega

theorem Bd.flowEntry {X : View} {u t : Text} (h : Bd C X u (44 :: t)) (hx : X.Flat u) (hf : X.Free) (hB : X.depth ≤ C.B) :
    Raw C { X with ds := X.ds ++ [.flowEntry], ks := .off :: X.ks.tail, al := true } (u ++ [44]) t :=
  h.go (w := [44]) hx (finds_flowEntry (h.ends (by simp))) ((moves_remove hf).does (moves_allow.does (does_indicator rfl))) (push_last (by simp)) hB

theorem start_depth {u : Text} {d : TokData} {X : View} : (X.start u d).depth ≤ X.depth + 1 := by
  unfold View.start View.depth
  split <;> simp <;> omega

theorem start_flow_id {u : Text} {d : TokData} {X : View} (h : X.flow ≠ 0) : X.start u d = X := by
  unfold View.start
  rw [if_neg fun hx => h hx.1]

theorem start_free {u : Text} {d : TokData} {X : View} (h : X.Free) : (X.start u d).Free := by
  unfold View.start; split <;> exact h

theorem start_frame {u : Text} {d : TokData} {X : View} : (X.start u d).flow = X.flow ∧ (X.start u d).al = X.al ∧ (X.start u d).ks = X.ks := by
  unfold View.start; split <;> exact ⟨rfl, rfl, rfl⟩

theorem Bd.blockEntry {X : View} {u t : Text} {d : Nat} (h : Bd C X u (45 :: d :: t)) (hx : X.Flat u) (hd : isBlankz d = true)
    (ha : X.al = true) (hf : X.Free) (hB : (X.start u .blockSequenceStart).depth ≤ C.B) :
    Raw C (((X.start u .blockSequenceStart).key .off).push .blockEntry) (u ++ [45]) (d :: t) := by
  have := h.go (w := [45]) hx (finds_entry (h.ends (by simp)) hd)
    ((moves_startBlock (d := .blockSequenceStart) (x := "block sequence entries are not allowed in this context") (h.column (List.prefix_refl _)) (fun _ => ha)).does
      ((moves_remove (start_free hf)).does ((moves_allow (b := true)).does (does_indicator rfl)))) (push_last (by simp))
      hB
  have e : View.allow true ((X.start u .blockSequenceStart).key .off) = (X.start u .blockSequenceStart).key .off := by
    have : (X.start u .blockSequenceStart).al = true := start_frame.2.1.trans ha
    generalize X.start u .blockSequenceStart = Y at this
    unfold View.allow View.key
    rw [this]
  rw [e] at this
  exact this

theorem Bd.key {X : View} {u t : Text} {d : Nat} (h : Bd C X u (63 :: d :: t)) (hx : X.Flat u) (hd : isBlankz d = true)
    (ha : X.flow = 0 → X.al = true) (hf : X.Free) (hB : (X.start u .blockMappingStart).depth ≤ C.B) :
    Raw C ((((X.start u .blockMappingStart).key .off).allow (X.flow == 0)).push .key) (u ++ [63]) (d :: t) := by
  refine h.go (w := [63]) hx (finds_key (h.ends (by simp)) hd)
    ((moves_startBlock (d := .blockMappingStart) (x := "mapping keys are not allowed in this context") (h.column (List.prefix_refl _)) ha).does
      ((moves_remove (start_free hf)).does ?_)) (push_last (by simp))
      hB
  refine Moves.does (v1 := ((X.start u .blockMappingStart).key .off).allow (X.flow == 0)) ?_ (does_indicator rfl)
  intro s h1 h2 h3
  obtain ⟨s', g1, g2, g3, g4⟩ := moves_allow (u := u) (b := X.flow == 0) s h1 h2 h3
  refine ⟨s', ?_, g2, g3, g4⟩
  have : s.flowLevel = X.flow := h3.flow.trans start_frame.1
  show s.allow (s.flowLevel == 0) = _
  rw [this]
  exact g1

/-- The value of a simple key. -/
theorem Bd.valueOn {X : View} {u t w : Text} {d n : Nat} {r : Bool} {as : List KS} (h : Bd C X u (58 :: d :: t)) (hx : X.Flat u) (hd : isBlankz d = true)
    (hk : X.ks = .on n w r :: as) (hn : n ≤ X.ds.length) (hw : w <+: u) (hB : (X.start w .blockMappingStart).depth ≤ C.B) :
    Raw C ((X.insertKey n w).push .value) (u ++ [58]) (d :: t) := by
  refine h.go (w := [58]) hx (finds_value (h.ends (by simp)) hd) ((moves_insertKey hk hn (h.column hw)).does (does_indicator rfl)) (push_last (by simp)) ?_
  refine Nat.le_trans (Nat.le_of_eq ?_ : (X.insertKey n w).depth ≤ _) hB
  unfold View.insertKey View.start View.depth
  split <;> rfl

/-- Another value. -/
theorem Bd.valueOff {X : View} {u t : Text} {d : Nat} {as : List KS} (h : Bd C X u (58 :: d :: t)) (hx : X.Flat u) (hd : isBlankz d = true)
    (hk : X.ks = .off :: as) (ha : X.flow = 0 → X.al = true) (hB : (X.start u .blockMappingStart).depth ≤ C.B) :
    Raw C (((X.start u .blockMappingStart).allow (X.flow == 0)).push .value) (u ++ [58]) (d :: t) :=
  h.go (w := [58]) hx (finds_value (h.ends (by simp)) hd) ((moves_valueKey hk (h.column (List.prefix_refl _)) ha).does (does_indicator rfl)) (push_last (by simp))
    hB

/-! #### Documents -/

def View.reset (v : View) : View := ((v.unroll (-1)).key .off).allow false

theorem reset_depth {v : View} : v.reset.depth ≤ v.depth := View.unroll_depth

theorem does_reset {p : SM Unit} {u t t' : Text} {v v' : View} (hn : v.Nested) (hf : v.Free) (hp : Does p u t t' v.reset v') : Does (do resetAll; p) u t t' v v' := by
  have h1 := moves_unroll (u := u) (c := -1) (by omega) hn
  have h2 : Moves Scanner.removeKey u (v.unroll (-1)) ((v.unroll (-1)).key .off) := moves_remove (by
    obtain ⟨a, as, e, hf⟩ := hf
    exact ⟨a, as, by rw [View.unroll_ks]; exact e, hf⟩)
  have h3 := moves_allow (u := u) (v := (v.unroll (-1)).key .off) (b := false)
  intro s k1 k2 k3
  obtain ⟨s1, a1, a2, a3, a4⟩ := h1 s k1 k2 k3
  obtain ⟨s2, b1, b2, b3, b4⟩ := h2 s1 (a2.trans k1) a3 a4
  obtain ⟨s3, c1, c2, c3, c4⟩ := h3 s2 (b2.trans (a2.trans k1)) b3 b4
  unfold resetAll
  rw [lw_bind, lw_bind, lw_act a1, lw_bind, lw_act b1, lw_act c1]
  exact hp s3 (c2.trans (b2.trans (a2.trans k1))) c3 c4

theorem Bd.documentStart {X : View} {u t : Text} {d : Nat} (h : Bd C X u (45 :: 45 :: 45 :: d :: t)) (hx : X.Flat u) (h0 : lastColumn u = 0)
    (hd : isBlankz d = true) (hf : X.Free) (hB : X.depth ≤ C.B) : Raw C (X.reset.push .documentStart) (u ++ [45, 45, 45]) (d :: t) :=
  h.go (w := [45, 45, 45]) hx (finds_documentStart h0 (h.ends (by simp)) hd) (does_reset h.nested hf (does_indicator rfl)) (push_last (by simp))
    (Nat.le_trans (show X.reset.depth ≤ _ from reset_depth) hB)

theorem Bd.documentEnd {X : View} {u t : Text} {d : Nat} (h : Bd C X u (46 :: 46 :: 46 :: d :: t)) (hx : X.Flat u) (h0 : lastColumn u = 0)
    (hd : isBlankz d = true) (hf : X.Free) (hB : X.depth ≤ C.B) : Raw C (X.reset.push .documentEnd) (u ++ [46, 46, 46]) (d :: t) :=
  h.go (w := [46, 46, 46]) hx (finds_documentEnd h0 (h.ends (by simp)) hd) (does_reset h.nested hf (does_indicator rfl)) (push_last (by simp))
    (Nat.le_trans (show X.reset.depth ≤ _ from reset_depth) hB)

theorem Bd.directive {X : View} {u w t : Text} {d : TokData} (h : Bd C X u (37 :: (w ++ t))) (hx : X.Flat u) (h0 : lastColumn u = 0)
    (hs : lw (scanDirective C.f) (fun tok _ cs => tok.data = d ∧ cs = t) (markOf u) (37 :: (w ++ t))) (hd : d ≠ .streamEnd)
    (hf : X.Free) (hB : X.depth ≤ C.B) : Raw C (X.reset.push d) (u ++ 37 :: w) t :=
  h.go (w := 37 :: w) hx (finds_directive h0) (does_reset h.nested hf (does_push hs)) (push_last hd)
    (Nat.le_trans (show X.reset.depth ≤ _ from reset_depth) hB)

/-! #### Scalars and properties -/

theorem Bd.anchor {X : View} {u w t : Text} {a : Bool} {d : TokData} (h : Bd C X u ((if a = true then 38 else 42) :: (w ++ t))) (hx : X.Flat u)
    (hs : lw (scanAnchor C.f a) (fun tok _ cs => tok.data = d ∧ cs = t) (markOf u) ((if a = true then 38 else 42) :: (w ++ t))) (hd : d ≠ .streamEnd)
    (hf : X.al = true → X.Free) (hB : X.depth ≤ C.B) : Raw C (((X.save u).allow false).push d) (u ++ (if a = true then 38 else 42) :: w) t :=
  h.go (w := (if a = true then 38 else 42) :: w) hx (finds_anchor (h.ends (by simp))) ((moves_save hf).does (moves_allow.does (does_push hs))) (push_last hd)
    (by obtain ⟨e1, e2, e3, e4, e5⟩ := X.save_frame u; show (X.save u).inds.length + (X.save u).flow ≤ _; rw [e3, e4]; exact hB)

theorem Bd.tag {X : View} {u w t : Text} {d : TokData} (h : Bd C X u (33 :: (w ++ t))) (hx : X.Flat u)
    (hs : lw (scanTag C.f (X.flow != 0)) (fun tok _ cs => tok.data = d ∧ cs = t) (markOf u) (33 :: (w ++ t))) (hd : d ≠ .streamEnd)
    (hf : X.al = true → X.Free) (hB : X.depth ≤ C.B) : Raw C (((X.save u).allow false).push d) (u ++ 33 :: w) t := by
  refine h.go (w := 33 :: w) hx (finds_tag (h.ends (by simp))) ((moves_save hf).does (moves_allow.does ?_)) (push_last hd)
    (by obtain ⟨e1, e2, e3, e4, e5⟩ := X.save_frame u; show (X.save u).inds.length + (X.save u).flow ≤ _; rw [e3, e4]; exact hB)
  refine does_get fun s hs' => ?_
  have : s.flowLevel = X.flow := hs'.flow.trans (X.save_frame u).2.2.2.1
  rw [this]
  exact does_push hs

theorem Bd.quoted {X : View} {u w t : Text} {single : Bool} {d : TokData} (h : Bd C X u (quoteC single :: (w ++ t))) (hx : X.Flat u)
    (hs : lw (scanFlowScalar C.f single) (fun tok _ cs => tok.data = d ∧ cs = t) (markOf u) (quoteC single :: (w ++ t))) (hd : d ≠ .streamEnd)
    (hf : X.al = true → X.Free) (hB : X.depth ≤ C.B) : Raw C (((X.save u).allow false).push d) (u ++ quoteC single :: w) t :=
  h.go (w := quoteC single :: w) hx (lw_dispatch_quote (h.ends (by simp))) ((moves_save hf).does (moves_allow.does (does_push hs))) (push_last hd)
    (by obtain ⟨e1, e2, e3, e4, e5⟩ := X.save_frame u; show (X.save u).inds.length + (X.save u).flow ≤ _; rw [e3, e4]; exact hB)

theorem Bd.literal {X : View} {u w t : Text} {literal : Bool} {c : Nat} {d : TokData} (hc : c = if literal = true then 124 else 62) (h : Bd C X u (c :: (w ++ t)))
    (hx : X.Flat u) (hfl : X.flow = 0)
    (hs : lw (scanBlockScalar C.f X.ind literal) (fun tok _ cs => tok.data = d ∧ cs = t) (markOf u) (c :: (w ++ t))) (hd : d ≠ .streamEnd)
    (hf : X.Free) (hB : X.depth ≤ C.B) : Raw C (((X.key .off).allow true).push d) (u ++ c :: w) t := by
  have hfind : Finds (X.flow != 0) u (c :: (w ++ t)) (.block literal) := by
    rw [hfl]; exact lw_dispatch_block hc (h.ends (by simp))
  refine h.go (w := c :: w) hx hfind ((moves_remove hf).does (moves_allow.does ?_)) (push_last hd) hB
  refine does_get fun s hs' => ?_
  have : s.indent = X.ind := hs'.ind
  rw [this]
  exact does_push hs

theorem Bd.plain {X : View} {u w t : Text} {d : TokData} {nl : Bool} (h : Bd C X u (w ++ t)) (hx : X.Flat u) (hfind : Finds (X.flow != 0) u (w ++ t) .plain)
    (hs : lw (scanPlainScalar C.f X.ind (X.flow != 0)) (fun r _ cs => r.1.data = d ∧ r.2 = nl ∧ cs = t) (markOf u) (w ++ t)) (hd : d ≠ .streamEnd)
    (hf : X.al = true → X.Free) (hB : X.depth ≤ C.B) : Raw C (((X.save u).allow nl).push d) (u ++ w) t := by
  obtain ⟨e1, e2, e3, e4, e5⟩ := X.save_frame u
  refine h.go (w := w) hx hfind ((moves_save hf).does (moves_allow.does ?_)) (push_last hd)
    (by show (X.save u).inds.length + (X.save u).flow ≤ _; rw [e3, e4]; exact hB)
  refine does_get fun s hs' => ?_
  have h1 : s.indent = X.ind := hs'.ind.trans e2
  have h2 : s.flowLevel = X.flow := hs'.flow.trans e4
  rw [h1, h2]
  intro s h1 h2 h3
  rw [lw_bind, lw_lex, h1]
  refine lw_mono hs ?_
  rintro ⟨tok, b⟩ m cs ⟨rfl, rfl, rfl⟩
  rw [lw_bind]
  have hal : s.allowed = false := h3.al
  refine (lw_act (s' := { s with mark := m, allowed := b }) ?_).mpr ?_
  · show Scanner.allow (b || s.allowed) _ = _
    rw [hal, Bool.or_false]; rfl
  · exact lw_enqueue ⟨h3.ds, h3.ind, h3.inds, h3.flow, rfl, h3.ks⟩

/-! ### The whole stream -/

theorem cache_bad {n : Nat} {i i' : In} (h : i.cache n = .ok i') : i'.bad = i.bad := by
  unfold In.cache at h
  split at h
  · cases h
  · split at h
    · cases h; rfl
    · split at h
      · cases h; rfl
      · split at h
        · cases h
        · cases h; rfl

theorem skip_bad {i i' : In} (h : i.skip = .ok i') : i'.bad = i.bad := by
  unfold In.skip at h
  split at h
  · cases h
  · split at h
    · cases h
    · cases h; rfl

theorem run_bad {α : Type} (p : Prog α) : ∀ {i i' : In} {a : α}, p.run i = .ok (a, i') → i'.bad = i.bad := by
  induction p with
  | ret a => intro i i' b h; cases h; rfl
  | fail e => intro i i' b h; cases h
  | cache n k ih =>
    intro i i' b h
    simp only [Prog.run] at h
    split at h
    · cases h
    · next h1 => exact (ih h).trans (cache_bad h1)
  | look n k ih =>
    intro i i' b h
    simp only [Prog.run] at h
    split at h
    · cases h
    · exact ih _ h
  | skip k ih =>
    intro i i' b h
    simp only [Prog.run] at h
    split at h
    · cases h
    · next h1 => exact (ih h).trans (skip_bad h1)

/-- The state after STREAM-START. -/
def View.init (enc : Enc) : View := { ds := [.streamStart enc], ind := -1, inds := [], flow := 0, ks := [.off], al := true }

theorem Raw.start (hT : C.T.getLast? = some 0) : Raw C (View.init C.enc) [] C.T := by
  have hat : At C.T none ({} : Mark) { cs := C.T } := by
    refine ⟨⟨[], rfl, rfl, ?_⟩, rfl, Nat.zero_le _, fun _ => hT⟩
    simp [NoCut]
  have hfr : FreshSt C.T none { enc := C.enc } { cs := C.T } := ⟨hat, rfl⟩
  have hs := sm_fetchFirst (f := C.f) (Q := fun _ s' i' => Running C.T none [] s' i' ∧ i'.cs.length ≤ C.T.length) noBad hfr (fun s' i' a b => ⟨a, b⟩)
  have hl : lw (fetchNext C.f) (fun _ s' cs' => Sees (View.init C.enc) s' ∧ cs' = C.T) { enc := C.enc } C.T := by
    unfold fetchNext
    rw [lw_bind, lw_lex, lw_cache1, lw_bind, lw_get, lw_ite, if_neg (by simp)]
    unfold fetchStreamStart
    refine (lw_act (s' := { enc := C.enc, indent := -1, keys := [{}], allowed := true, startProduced := true, tokens := [{ data := .streamStart C.enc, start := {}, stop := {} }] }) ?_).mpr ?_
    · rfl
    · exact ⟨⟨rfl, rfl, rfl, rfl, rfl, rfl, trivial⟩, rfl⟩
  obtain ⟨_, s', i', h1, ⟨h2, h3⟩, h4, _⟩ := lw_and (i := { cs := C.T }) rfl (pw_mono hs (fun _ _ _ h => h) (fun _ h => h.1)) hl
  refine ⟨1, s', i', Chain.snoc (.nil _ _ (Nat.zero_le _)) (.inl hfr) h1 ?_, h4, h3, rfl, h2⟩
  rw [h2.inds, h2.flow]; exact Nat.zero_le _

theorem removed {v : View} {s : Scanner} (hf : v.Free) (h3 : Sees v s) : ∃ s', Scanner.removeKey s = .ok s' ∧ Sees (v.key .off) s' := by
  obtain ⟨a, as, e, hf⟩ := hf
  have hk := h3.ks
  rw [e] at hk
  obtain ⟨k, ks, ek, hk1, hk2⟩ := hk.cons
  refine ⟨{ s with keys := { k with possible := false } :: ks }, ?_, h3.ds, h3.ind, h3.inds, h3.flow, h3.al, ?_⟩
  · unfold Scanner.removeKey
    rw [ek]
    show (if (k.possible && k.required) = true then _ else _) = _
    rw [hk1.dropped hf]; rfl
  · show KeysOk (.off :: v.ks.tail) _
    rw [e]
    exact ⟨rfl, hk2⟩

/-- The end: the tokens are delivered, within the bound of the depth. -/
theorem Bd.finish {X : View} {u t : Text} {a : KS} (h : Bd C X u (0 :: t)) (hx : X.Flat u) (hfl : X.flow = 0) (hk : X.ks = [a]) (hf : a.free)
    (hB : X.depth ≤ C.B) :
    ∃ toks, toks.map Token.data = X.reset.ds ++ [.streamEnd] ∧ (∃ y, Feeds (textSrc C.f) ({ enc := C.enc }, { cs := C.T }) toks y) ∧
      ∀ toks y, Feeds (textSrc C.f) ({ enc := C.enc }, { cs := C.T }) toks y → (textSrc C.f).depth y ≤ C.B := by
  have hnest := h.nested
  obtain ⟨n, s, i, h1, h2, h3, h4, hflow, h5⟩ := h
  have hstep := fetch_step (C := C) h2 (lw_fetchNext (Q := fun _ s' _ => Sees (X.reset.push .streamEnd) s') h2.base.started (lw_mono h5 ?_))
  · obtain ⟨s', i', r1, r3, r4⟩ := hstep
    have hdep : s'.indents.length + s'.flowLevel ≤ C.B := by
      rw [r3.inds, r3.flow]
      exact Nat.le_trans (show X.reset.depth ≤ _ from reset_depth) hB
    have hmem : ∃ x ∈ s'.tokens, x.data = .streamEnd := by
      have : TokData.streamEnd ∈ s'.tokens.map Token.data := by
        rw [r3.ds]
        show _ ∈ X.reset.ds ++ [TokData.streamEnd]
        simp
      obtain ⟨x, hx, e⟩ := List.mem_map.mp this
      exact ⟨x, hx, e⟩
    rcases r4 with ⟨r4, _⟩ | r4
    · exfalso
      obtain ⟨x, hx, e⟩ := hmem
      exact running_no_end (s := s') r4.base.toks x (by simpa using hx) e
    · have hks : ∀ k ∈ s'.keys, k.possible = false := by
        have hk' := r3.ks
        have e : (X.reset.push .streamEnd).ks = [.off] := by
          show KS.off :: (X.unroll (-1)).ks.tail = _
          rw [View.unroll_ks, hk]; rfl
        rw [e] at hk'
        obtain ⟨k, ks, ek, hk1, hk2⟩ := hk'.cons
        cases ks with
        | cons _ _ => exact hk2.elim
        | nil =>
          intro k' hk'
          rw [ek] at hk'
          rw [List.mem_singleton.mp hk']
          exact hk1
      have hfl' : s'.flowLevel = 0 := by
        rw [r3.flow]
        show (X.unroll (-1)).flow = 0
        rw [View.unroll_flowLevel, hfl]
      obtain ⟨f1, f2⟩ := eager_feeds C.fuel (h1.snoc (.inr h2) r1 hdep) r4 hks hfl' ((run_bad _ r1).trans h2.base.pos.bad)
      exact ⟨s'.tokens, r3.ds, f1, f2⟩
  · rintro _ s1 cs1 ⟨rfl, e2, e3, e4⟩
    rw [lw_bind, lw_lex, ← hflow, e2]
    refine lw_mono finds_end ?_
    rintro k m cs ⟨rfl, rfl, rfl⟩
    rw [hx] at e3
    have e3' : Sees X { s1 with mark := forceLine s1.mark } := e3.mark
    obtain ⟨s2, a1, a2, a3, a4, _⟩ := sees_unroll (c := -1) (by omega) e3' hnest
    obtain ⟨s3, b1, b4⟩ := removed (v := X.unroll (-1)) ⟨a, [], by rw [View.unroll_ks]; exact hk, hf⟩ a2
    show lw fetchStreamEnd _ _ _
    unfold fetchStreamEnd
    rw [lw_bind]
    refine (lw_act (s' := { s1 with mark := forceLine s1.mark }) ?_).mpr ?_
    · rw [e2]
    · unfold resetAll
      rw [lw_bind, lw_bind, lw_act a1, lw_bind, lw_act b1]
      refine (lw_act (s' := { s3 with allowed := false }) ?_).mpr ?_
      · rfl
      refine (lw_act (s' := { s3 with allowed := false, tokens := s3.tokens ++ [{ data := .streamEnd, start := s3.mark, stop := s3.mark }] }) ?_).mpr ?_
      · rfl
      refine ⟨?_, b4.ind, b4.inds, b4.flow, rfl, b4.ks⟩
      show (s3.tokens ++ [_]).map Token.data = _
      rw [List.map_append, b4.ds]; rfl

end LibYaml
