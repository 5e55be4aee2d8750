import Verif.Spec.Layout
import Verif.Proofs.Tokens

/-! Facts about layout and implicit keys (`Spec/Layout.lean`). -/

namespace LibYaml

open Spec

variable {ls pre post : List Lx} {l x : Lx} {lv v : Nat} {cols : List Nat}

/-! ### Layout -/

theorem layout_append {a b : List Lx} : layout cols (a ++ b) = layout cols a ++ layout (openBlocks cols a) b := by
  induction a generalizing cols with
  | nil => rfl
  | cons x a ih => simp [layout, openBlocks, ih]

theorem openBlocks_append {a b : List Lx} : openBlocks cols (a ++ b) = openBlocks (openBlocks cols a) b := by
  induction a generalizing cols with
  | nil => rfl
  | cons x a ih => simp [openBlocks, ih]

theorem stillOpen_id {col : Nat} (h : indentOf cols ≤ col) : stillOpen col cols = cols ∧ endedBlocks col cols = [] := by
  cases cols with
  | nil => exact ⟨rfl, rfl⟩
  | cons c r =>
    have : ¬ col < c := by simp only [indentOf] at h; omega
    exact ⟨by simp [stillOpen, this], by simp [endedBlocks, this]⟩

/-- A lexeme of a node under way leaves the block collections alone. -/
def Still (c : Nat) (x : Lx) : Prop := x.level ≠ 0 ∨ (opensKey x.data = true ∧ c ≤ x.pos.column ∧ x.keyed = false)

theorem still_within {c : Nat} (h : Still c x) (hc : indentOf cols ≤ c) : x.closing cols = [] ∧ x.within cols = cols := by
  unfold Lx.closing Lx.within
  by_cases h0 : x.level = 0
  · rcases h with h | ⟨_, h, _⟩
    · exact absurd h0 h
    · have := stillOpen_id (cols := cols) (col := x.pos.column) (by omega)
      rw [if_pos h0, if_pos h0, this.1, this.2]
      exact ⟨rfl, rfl⟩
  · rw [if_neg h0, if_neg h0]
    exact ⟨rfl, rfl⟩

theorem opensKey_ends {d : TokData} (h : opensKey d = true) : endsBlocks d = false ∧ d ≠ .value ∧ d ≠ .blockEntry ∧ d ≠ .key ∧ d ≠ .streamEnd := by
  cases d <;> simp_all [opensKey, endsBlocks]

theorem begins_unkeyed (h : opensKey x.data = true) (hk : x.keyed = false) : x.begins = none := by
  unfold Lx.begins
  split
  · split <;> simp_all [opensKey]
  · rfl

theorem begins_level (h : x.level ≠ 0) : x.begins = none := by
  unfold Lx.begins
  rw [if_neg h]

theorem still_begins {c : Nat} (h : Still c x) : x.begins = none := by
  rcases h with h | ⟨h, _, hk⟩
  · exact begins_level h
  · exact begins_unkeyed h hk

theorem opening_none (h : x.begins = none) : x.opening cols = none := by
  unfold Lx.opening
  split
  · exact h
  · rfl

theorem still_step {c : Nat} (h : Still c x) (hc : indentOf cols ≤ c) :
    x.body (x.within cols) = x.body [] ∧ x.leaves (x.within cols) = cols := by
  have hw := still_within h hc
  have ho : ∀ cols, x.opening cols = none := fun cols => opening_none (still_begins h)
  have he : ¬ (endsBlocks x.data = true ∧ x.level = 0) := by
    rintro ⟨h1, h2⟩
    rcases h with h | ⟨h, _⟩
    · exact h h2
    · rw [(opensKey_ends h).1] at h1; cases h1
  rw [hw.2]
  unfold Lx.body Lx.leaves
  rw [if_neg he, if_neg he, if_neg he, ho, ho]
  exact ⟨rfl, rfl⟩

theorem still_layout {c : Nat} (h : ∀ x ∈ ls, Still c x) (hc : indentOf cols ≤ c) :
    layout cols ls = ls.flatMap (fun x => x.body []) ∧ openBlocks cols ls = cols := by
  induction ls with
  | nil => exact ⟨rfl, rfl⟩
  | cons x ls ih =>
    have h1 := still_step (h x (by simp)) hc
    have h0 := still_within (h x (by simp)) hc
    have h2 := ih (fun y hy => h y (by simp [hy]))
    simp only [layout, openBlocks, List.flatMap_cons]
    rw [h1.2, h0.1, h2.1, h2.2, h1.1]
    simp

/-- How many tokens, with STREAM-START, are in front of a lexeme. -/
def number (pre : List Lx) (l : Lx) : Nat := 1 + (layout [] pre).length + (l.closing (openBlocks [] pre)).length

/-- The tokens that mark an implicit key. -/
def keyToks' (l : Lx) (cols : List Nat) : List Token :=
  (if l.level = 0 ∧ indentOf cols < l.pos.column then [{ data := .blockMappingStart, start := l.pos, stop := l.pos }] else []) ++
    [{ data := .key, start := l.pos, stop := l.pos }]

theorem opening_keyed (ho : opensKey l.data = true) :
    Lx.opening { l with keyed := true } cols = if l.level = 0 ∧ indentOf cols < l.pos.column then some .blockMappingStart else none := by
  have h1 := opensKey_ends ho
  unfold Lx.opening Lx.begins
  by_cases h : indentOf cols < l.pos.column
  · simp only [h, if_true, and_true]
    split
    · split <;> simp_all [opensKey]
    · rfl
  · simp [h]

theorem within_keyed {k : Bool} : Lx.within { l with keyed := k } cols = l.within cols := rfl
theorem closing_keyed {k : Bool} : Lx.closing { l with keyed := k } cols = l.closing cols := rfl

theorem body_keyed (ho : opensKey l.data = true) (hk : l.keyed = false) :
    Lx.body { l with keyed := true } cols = keyToks' l cols ++ l.body cols ∧ l.body cols = [l.token] ∧ l.leaves cols = cols ∧
      Lx.leaves { l with keyed := true } cols = if l.level = 0 ∧ indentOf cols < l.pos.column then l.pos.column :: cols else cols := by
  have h1 := opensKey_ends ho
  have hb : l.body cols = [l.token] := by
    unfold Lx.body
    rw [opening_none (begins_unkeyed ho hk)]
    simp [h1.1, hk]
  have hl : l.leaves cols = cols := by
    unfold Lx.leaves
    rw [opening_none (begins_unkeyed ho hk)]
    simp [h1.1]
  have ht : Lx.token { l with keyed := true } = l.token := rfl
  refine ⟨?_, hb, hl, ?_⟩
  · rw [hb]
    unfold Lx.body keyToks'
    rw [opening_keyed ho, ht]
    simp only [h1.1]
    by_cases h : l.level = 0 ∧ indentOf cols < l.pos.column
    · simp [h, h1.2.1]
    · simp [h, h1.2.1]
  · unfold Lx.leaves
    rw [opening_keyed ho]
    simp only [h1.1]
    by_cases h : l.level = 0 ∧ indentOf cols < l.pos.column
    · simp [h]
    · simp [h]

theorem within_indent (h : l.level = 0) : indentOf (l.within cols) ≤ l.pos.column := by
  unfold Lx.within
  rw [if_pos h]
  unfold stillOpen
  induction cols with
  | nil => simp [indentOf]
  | cons c r ih =>
    by_cases hc : l.pos.column < c
    · simpa [hc] using ih
    · simp only [List.dropWhile_cons, hc, decide_false, indentOf]
      simp only [Bool.false_eq_true, if_false]
      omega

/-- Marking an implicit key inserts its tokens in front of it and leaves the rest as it is. -/
theorem layout_marked (ho : opensKey l.data = true) (hk : l.keyed = false) (hp : ∀ x ∈ post, if l.level = 0 then Still l.pos.column x else x.level ≠ 0) :
    ∃ A B, layout [] (pre ++ l :: post) = A ++ B ∧ A.length + 1 = number pre l ∧
      openBlocks [] (pre ++ l :: post) = l.within (openBlocks [] pre) ∧
      layout [] (pre ++ { l with keyed := true } :: post) = A ++ (keyToks' l (l.within (openBlocks [] pre)) ++ B) ∧
      openBlocks [] (pre ++ { l with keyed := true } :: post) =
        if l.level = 0 ∧ indentOf (l.within (openBlocks [] pre)) < l.pos.column then l.pos.column :: l.within (openBlocks [] pre)
        else l.within (openBlocks [] pre) := by
  obtain ⟨b1, b2, b3, b4⟩ := body_keyed (cols := l.within (openBlocks [] pre)) ho hk
  generalize hc : l.within (openBlocks [] pre) = cs at *
  have key : ∀ cs', (cs' = cs ∨ (l.level = 0 ∧ cs' = l.pos.column :: cs)) → layout cs' post = post.flatMap (fun x => x.body []) ∧ openBlocks cs' post = cs' := by
    intro cs' h
    by_cases h0 : l.level = 0
    · refine still_layout (c := l.pos.column) (fun x hx => by have := hp x hx; rwa [if_pos h0] at this) ?_
      rcases h with rfl | ⟨_, rfl⟩
      · rw [← hc]; exact within_indent h0
      · simp [indentOf]
    · refine still_layout (c := (indentOf cs').toNat) (fun x hx => .inl (by have := hp x hx; rwa [if_neg h0] at this)) (by omega)
  refine ⟨layout [] pre ++ l.closing (openBlocks [] pre), [l.token] ++ post.flatMap (fun x => x.body []), ?_, ?_, ?_, ?_, ?_⟩
  · rw [layout_append]
    simp only [layout]
    rw [hc, b3, b2, (key cs (.inl rfl)).1]
    simp
  · simp [number]; omega
  · rw [openBlocks_append]
    simp only [openBlocks]
    rw [hc, b3, (key cs (.inl rfl)).2]
  · rw [layout_append]
    simp only [layout, within_keyed, closing_keyed]
    rw [hc, b1, b4, b2]
    split
    · rename_i h; rw [(key _ (.inr ⟨h.1, rfl⟩)).1]; simp
    · rw [(key _ (.inl rfl)).1]; simp
  · rw [openBlocks_append]
    simp only [openBlocks, within_keyed]
    rw [hc, b4]
    split
    · rename_i h; rw [(key _ (.inr ⟨h.1, rfl⟩)).2]
    · rw [(key _ (.inl rfl)).2]

/-! ### Implicit keys -/

theorem pending_snoc : Pending (ls ++ [x]) v pre l post ↔
    (pre = ls ∧ l = x ∧ post = [] ∧ x.level = v ∧ x.free = true ∧ opensKey x.data = true) ∨
    (∃ post', post = post' ++ [x] ∧ Pending ls v pre l post' ∧ v ≤ x.level ∧ (x.level = v → opensKey x.data = true ∧ x.free = false)) := by
  constructor
  · rintro ⟨h1, h2, h3, h4, h5⟩
    rcases List.eq_nil_or_concat post with rfl | ⟨post', y, rfl⟩
    · have := List.append_inj' h1 rfl
      obtain ⟨rfl, e⟩ := this
      cases e
      exact .inl ⟨rfl, rfl, rfl, h2, h3, h4⟩
    · rw [List.concat_eq_append] at *
      have h1' : ls ++ [x] = (pre ++ l :: post') ++ [y] := by simpa using h1
      obtain ⟨rfl, e⟩ := List.append_inj' h1' rfl
      cases e
      refine .inr ⟨post', rfl, ⟨rfl, h2, h3, h4, fun z hz => h5 z (by simp [hz])⟩, h5 x (by simp)⟩
  · rintro (⟨rfl, rfl, rfl, h1, h2, h3⟩ | ⟨post', rfl, ⟨rfl, h2, h3, h4, h5⟩, h6⟩)
    · exact ⟨rfl, h1, h2, h3, by simp⟩
    · refine ⟨by simp, h2, h3, h4, fun z hz => ?_⟩
      rcases List.mem_append.mp hz with hz | hz
      · exact h5 z hz
      · simp at hz; subst hz; exact h6

theorem pending_nil : ¬ Pending [] v pre l post := by
  rintro ⟨h, _⟩
  simp at h

/-- There is at most one. -/
theorem pending_unique {pre' post' : List Lx} {l' : Lx} (h : Pending ls v pre l post) (h' : Pending ls v pre' l' post') :
    pre = pre' ∧ l = l' ∧ post = post' := by
  have key : ∀ {pre pre' post post' : List Lx} {l l' : Lx}, Pending ls v pre l post → Pending ls v pre' l' post' → ¬ pre.length < pre'.length := by
    intro pre pre' post post' l l' h h' hlt
    have he := h.eq.symm.trans h'.eq
    have hm : l' ∈ post := by
      have := congrArg (fun z => z[pre'.length]?) he
      simp only [List.getElem?_append_right (Nat.le_of_lt hlt), List.getElem?_append_right (Nat.le_refl _)] at this
      obtain ⟨n, hn⟩ : ∃ n, pre'.length - pre.length = n + 1 := ⟨pre'.length - pre.length - 1, by omega⟩
      rw [hn] at this
      simp at this
      exact List.mem_of_getElem? this
    have := (h.rest l' hm).2 h'.level
    rw [h'.free] at this
    cases this.2
  have hl : pre.length = pre'.length := by
    have := key h h'; have := key h' h; omega
  have he := h.eq.symm.trans h'.eq
  obtain ⟨h1, h2⟩ := List.append_inj he hl
  cases h2
  exact ⟨h1, rfl, rfl⟩

/-- A lexeme inside of a nested collection does not matter to the outer levels. -/
theorem pending_inner (hx : v < x.level) : Pending (ls ++ [x]) v pre l post ↔ ∃ post', post = post' ++ [x] ∧ Pending ls v pre l post' := by
  rw [pending_snoc]
  constructor
  · rintro (⟨_, _, _, h, _⟩ | ⟨p, h1, h2, _⟩)
    · omega
    · exact ⟨p, h1, h2⟩
  · rintro ⟨p, h1, h2⟩
    exact .inr ⟨p, h1, h2, by omega, by omega⟩

theorem pending_ended (hx : x.level = v) (hd : opensKey x.data = false) : ¬ Pending (ls ++ [x]) v pre l post := by
  rw [pending_snoc]
  rintro (⟨_, _, _, _, _, h⟩ | ⟨p, _, _, _, h⟩)
  · rw [hd] at h; cases h
  · have := (h hx).1; rw [hd] at this; cases this

theorem pending_outer (hx : x.level < v) : ¬ Pending (ls ++ [x]) v pre l post := by
  rw [pending_snoc]
  rintro (⟨_, _, _, h, _⟩ | ⟨p, _, _, h, _⟩) <;> omega

/-- Marking a key does not matter to the outer levels. -/
theorem pending_marked {a b : List Lx} {c : Lx} (hc : Pending ls lv a c b) (hv : v < lv) :
    Pending (a ++ { c with keyed := true } :: b) v pre l post ↔
    ∃ p q, post = p ++ { c with keyed := true } :: q ∧ Pending ls v pre l (p ++ c :: q) ∧ q = b ∧ a = pre ++ l :: p := by
  constructor
  · rintro ⟨h1, h2, h3, h4, h5⟩
    -- the pending lexeme stands in front of the marked one
    have : pre.length < a.length := by
      refine Nat.lt_of_not_le fun hle => ?_
      obtain ⟨n, hn⟩ := Nat.le.dest hle
      have he := congrArg (fun z => z[pre.length]?) h1
      simp only [List.getElem?_append_right hle, List.getElem?_append_right (Nat.le_refl _)] at he
      rw [show pre.length - a.length = n by omega] at he
      cases n with
      | zero => simp at he; rw [← he] at h2; simp only at h2; have := hc.level; omega
      | succ n =>
        simp at he
        have := (hc.rest l (List.mem_of_getElem? he)).1
        omega
    obtain ⟨p, rfl⟩ : ∃ p, a = pre ++ l :: p := by
      obtain ⟨r, hr⟩ : pre <+: a := List.prefix_of_prefix_length_le (l₃ := a ++ { c with keyed := true } :: b) ⟨_, h1.symm⟩ ⟨_, rfl⟩ (by omega)
      subst hr
      cases r with
      | nil => simp at this
      | cons y r =>
        simp at h1
        exact ⟨r, by rw [h1.1]⟩
    have h1' : p ++ { c with keyed := true } :: b = post := by simpa using h1
    subst h1'
    refine ⟨p, b, rfl, ⟨by rw [hc.eq]; simp, h2, h3, h4, fun z hz => ?_⟩, rfl, rfl⟩
    rcases List.mem_append.mp hz with hz | hz
    · exact h5 z (by simp [hz])
    · rcases List.mem_cons.mp hz with rfl | hz
      · exact h5 { z with keyed := true } (by simp)
      · exact h5 z (by simp [hz])
  · rintro ⟨p, q, rfl, ⟨h1, h2, h3, h4, h5⟩, rfl, rfl⟩
    refine ⟨by simp, h2, h3, h4, fun z hz => ?_⟩
    rcases List.mem_append.mp hz with hz | hz
    · exact h5 z (by simp [hz])
    · rcases List.mem_cons.mp hz with rfl | hz
      · exact h5 c (by simp)
      · exact h5 z (by simp [hz])

/-! ### Columns -/

theorem pos_column_le {T : List Nat} {x y : Mark} (hx : IsPos T x) (hy : IsPos T y) (hle : x.index ≤ y.index) (hl : x.line = y.line) :
    x.column ≤ y.column := by
  obtain ⟨u, w, rfl, rfl, hn⟩ := pos_split hx hy hle
  simp only [markOf, lineBreaks_append u w hn] at hl ⊢
  have hb : ∀ c ∈ w, isBreakChar c = false := by
    intro c hc
    by_cases h : isBreakChar c = true
    · have := lineBreaks_pos h hc; omega
    · simpa using h
  clear hx hy hle hl hn
  induction w generalizing u with
  | nil => simp
  | cons c w ih =>
    have h1 := ih (u ++ [c]) (fun x hx => hb x (by simp [hx]))
    rw [lastColumn_snoc, if_neg (by simp [hb c (by simp)])] at h1
    rw [show u ++ c :: w = u ++ [c] ++ w by simp]
    omega

/-! ### One lexeme more -/

theorem marked_length {ls' : List Lx} {m : Mark} {d : TokData} {kd : Bool} (h : Marked ls lv m d ls' kd) : ls'.length = ls.length := by
  cases h with
  | other => rfl
  | implicit _ hp => rw [hp.eq]; simp
  | explicit => rfl

/-- One lexeme more. -/
inductive LexStep (T : List Nat) (ls : List Lx) (u : List Nat) (lv : Nat) (key : Bool) : List Lx → List Nat → Nat → Bool → Prop
  | mk {w v x mid rest : List Nat} {key' kd line : Bool} {ls' : List Lx} {d : TokData} :
      T = u ++ (w ++ (v ++ rest)) →
      Filler (decide (lv ≠ 0)) key (lastColumn u) (w ++ (v ++ rest)) key' (v ++ rest) →
      Lexeme (decide (lv ≠ 0)) (indentOf (if lv = 0 then stillOpen (lastColumn (u ++ w)) (openBlocks [] ls) else openBlocks [] ls)) (lastColumn (u ++ w))
        (v ++ rest) d mid rest line →
      v ++ rest = x ++ mid →
      Marked ls lv (markOf (u ++ w)) d ls' kd →
      KeyKept ls lv (markOf (u ++ w)) d key' →
      (lv = 0 → needsFree d kd = true → key' = true) →
      LexStep T ls u lv key (ls' ++ [{ data := d, pos := markOf (u ++ w), stop := stopAt d (markOf (u ++ w)) (markOf (u ++ (w ++ x))), level := lv, free := key', keyed := kd }])
        (u ++ (w ++ v)) (levelAfter lv d) (freeAfter (decide (lv ≠ 0)) d kd line)

theorem LexStep.lexed {T u u' : List Nat} {ls' : List Lx} {lv lv' : Nat} {key key' : Bool} (hL : Lexed T ls u lv key) (hno : ∀ x ∈ ls, x.data ≠ .streamEnd)
    (h : LexStep T ls u lv key ls' u' lv' key') : Lexed T ls' u' lv' key' := by
  cases h with
  | mk hT hf hl hx hm hk hn => exact .next hL hno hT hf hl hx hm hk hn

end LibYaml
