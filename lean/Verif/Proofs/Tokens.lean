import Verif.Spec.Tokens
import Verif.Proofs.Lexer

/-! Lemmas about token lists and positions. -/

namespace LibYaml

open Spec

/-! ### Block levels -/

theorem blockLevel_append (n : Nat) (a b : List Token) : blockLevel n (a ++ b) = (blockLevel n a).bind fun k => blockLevel k b := by
  induction a generalizing n with
  | nil => rfl
  | cons t a ih =>
    simp only [List.cons_append, blockLevel]
    by_cases h1 : opensBlock t = true
    · rw [if_pos h1, if_pos h1, ih]
    · rw [if_neg h1, if_neg h1]
      by_cases h2 : closesBlock t = true
      · rw [if_pos h2, if_pos h2]
        cases n with
        | zero => rfl
        | succ n => exact ih n
      · rw [if_neg h2, if_neg h2, ih]

theorem blockLevel_succ {n k : Nat} {a : List Token} (h : blockLevel n a = some k) : blockLevel (n + 1) a = some (k + 1) := by
  induction a generalizing n with
  | nil => cases h; rfl
  | cons t a ih =>
    simp only [blockLevel] at h ⊢
    by_cases h1 : opensBlock t = true
    · rw [if_pos h1] at h ⊢; exact ih h
    · rw [if_neg h1] at h ⊢
      by_cases h2 : closesBlock t = true
      · rw [if_pos h2] at h ⊢
        cases n with
        | zero => cases h
        | succ n => exact ih h
      · rw [if_neg h2] at h ⊢; exact ih h

/-- A start inserted anywhere raises the level at the end by one. -/
theorem blockLevel_insert_start {n k : Nat} {a b : List Token} {t : Token} (h : blockLevel n (a ++ b) = some k)
    (ht : opensBlock t = true) : blockLevel n (a ++ t :: b) = some (k + 1) := by
  rw [blockLevel_append] at h ⊢
  cases ha : blockLevel n a with
  | none => rw [ha] at h; cases h
  | some j =>
    rw [ha] at h
    simp only [Option.bind_some] at h ⊢
    simp only [blockLevel, if_pos ht]
    exact blockLevel_succ h

/-- Neither a start nor an end of a block collection. -/
def blockNeutral (t : Token) : Prop := opensBlock t = false ∧ closesBlock t = false

theorem blockLevel_insert_neutral {n : Nat} {a b : List Token} {t : Token} (ht : blockNeutral t) :
    blockLevel n (a ++ t :: b) = blockLevel n (a ++ b) := by
  rw [blockLevel_append, blockLevel_append]
  cases blockLevel n a with
  | none => rfl
  | some j => simp [blockLevel, ht.1, ht.2]

theorem blockLevel_snoc_neutral {n : Nat} {a : List Token} {t : Token} (ht : blockNeutral t) :
    blockLevel n (a ++ [t]) = blockLevel n a := by
  have := blockLevel_insert_neutral (n := n) (a := a) (b := []) ht
  simpa using this

theorem blockLevel_ends {k : Nat} {b : List Token} (hb : ∀ t ∈ b, t.data = .blockEnd) :
    blockLevel (b.length + k) b = some k := by
  induction b with
  | nil => simp [blockLevel]
  | cons t b ih =>
    have ht : t.data = .blockEnd := hb t (by simp)
    have : (t :: b).length + k = (b.length + k) + 1 := by simp; omega
    rw [this]
    simp only [blockLevel, opensBlock, closesBlock, ht]
    exact ih fun x hx => hb x (by simp [hx])

/-! ### Flow depth -/

theorem flowDepth_snoc (a : List Token) (t : Token) : flowDepth (a ++ [t]) = flowStep (flowDepth a) t := by
  simp [flowDepth]

theorem flowDepth_insert {a b : List Token} {t : Token} (ht : ∀ n, flowStep n t = n) :
    flowDepth (a ++ t :: b) = flowDepth (a ++ b) := by
  simp [flowDepth, ht]

theorem flowDepth_ends {a b : List Token} (hb : ∀ t ∈ b, t.data = .blockEnd) : flowDepth (a ++ b) = flowDepth a := by
  induction b generalizing a with
  | nil => simp
  | cons t b ih =>
    have : flowStep (flowDepth a) t = flowDepth a := by simp [flowStep, hb t (by simp)]
    have h2 := ih (a := a ++ [t]) (fun x hx => hb x (by simp [hx]))
    rw [flowDepth_snoc, this] at h2
    simpa using h2

/-! ### Keys -/

theorem served_append {a b : List Token} (ha : KeysServed a) (hb : KeysServed b) : KeysServed (a ++ b) := by
  induction a with
  | nil => exact hb
  | cons t a ih =>
    refine ⟨fun hk => ?_, ih ha.2⟩
    obtain ⟨v, hv, hs⟩ := ha.1 hk
    exact ⟨v, by simp [hv], hs⟩

theorem served_snoc {a : List Token} {t : Token} (ha : KeysServed a) (ht : ¬ implicitKey t) : KeysServed (a ++ [t]) :=
  served_append ha ⟨fun h => absurd h ht, trivial⟩

/-- Inserting tokens whose implicit keys are served by the last token. -/
theorem served_insert {a b x : List Token} {v : Token} (h : KeysServed (a ++ b)) (hv : ¬ implicitKey v)
    (hx : ∀ t ∈ x, implicitKey t → serves v t) : KeysServed (a ++ x ++ b ++ [v]) := by
  induction a with
  | nil =>
    have hbv : KeysServed (b ++ [v]) := served_snoc (by simpa using h) hv
    simp only [List.nil_append]
    induction x with
    | nil => simpa using hbv
    | cons t x ih =>
      refine ⟨fun hk => ⟨v, by simp, hx t (by simp) hk⟩, ?_⟩
      have := ih (fun y hy => hx y (by simp [hy]))
      simpa using this
  | cons t a ih =>
    refine ⟨fun hk => ?_, ?_⟩
    · obtain ⟨w, hw, hs⟩ := h.1 hk
      refine ⟨w, ?_, hs⟩
      have hw : w ∈ a ++ b := hw
      show w ∈ a ++ x ++ b ++ [v]
      simp only [List.mem_append] at hw ⊢
      rcases hw with hw | hw
      · simp [hw]
      · simp [hw]
    · have := ih h.2
      simpa using this

/-! ### Framing and order -/

theorem opened_snoc {a : List Token} {t : Token} (h : Opened a) (ht : isStreamTok t = false) : Opened (a ++ [t]) := by
  obtain ⟨x, r, en, rfl, hx, hr⟩ := h
  refine ⟨x, r ++ [t], en, by simp, hx, ?_⟩
  intro y hy
  rcases List.mem_append.mp hy with hy | hy
  · exact hr y hy
  · simp at hy; subst hy; exact ht

theorem opened_insert {a b : List Token} {t : Token} (h : Opened (a ++ b)) (ha : a ≠ []) (ht : isStreamTok t = false) :
    Opened (a ++ t :: b) := by
  obtain ⟨x, r, en, hab, hx, hr⟩ := h
  cases a with
  | nil => exact absurd rfl ha
  | cons y a =>
    simp only [List.cons_append, List.cons.injEq] at hab
    obtain ⟨rfl, rfl⟩ := hab
    refine ⟨y, a ++ t :: b, en, by simp, hx, ?_⟩
    intro z hz
    simp only [List.mem_append, List.mem_cons] at hz
    rcases hz with hz | rfl | hz
    · exact hr z (by simp [hz])
    · exact ht
    · exact hr z (by simp [hz])

theorem inOrder_snoc {a : List Token} {t : Token} (h : InOrder a) (ht : ∀ x ∈ a, x.stop.index ≤ t.start.index) :
    InOrder (a ++ [t]) := by
  refine List.pairwise_append.mpr ⟨h, by simp, ?_⟩
  intro x hx y hy
  simp at hy; subst hy
  exact ht x hx

theorem inOrder_insert {a b : List Token} {t x : Token} (h : InOrder (a ++ x :: b)) (ht : t.start.index = x.start.index)
    (hs : t.stop.index = x.start.index) (hx : x.start.index ≤ x.stop.index) :
    InOrder (a ++ t :: x :: b) := by
  obtain ⟨h1, h2, h3⟩ := List.pairwise_append.mp h
  refine List.pairwise_append.mpr ⟨h1, ?_, ?_⟩
  · refine List.pairwise_cons.mpr ⟨?_, h2⟩
    intro y hy
    rw [hs]
    rcases List.mem_cons.mp hy with rfl | hy
    · exact Nat.le_refl _
    · exact Nat.le_trans hx ((List.pairwise_cons.mp h2).1 y hy)
  · intro y hy z hz
    rcases List.mem_cons.mp hz with rfl | hz
    · rw [ht]; exact h3 y hy x (by simp)
    · exact h3 y hy z hz

/-! ### Positions -/

theorem lineBreaks_pos {c : Nat} {l : List Nat} (hc : isBreakChar c = true) (h : c ∈ l) : 1 ≤ lineBreaks l := by
  induction l using lineBreaks.induct with
  | case1 => cases h
  | case2 r ih => rw [lineBreaks_crlf_cons]; omega
  | case3 d r hne ih =>
    rw [lineBreaks_cons (by
      rintro ⟨rfl, h2⟩
      cases r with
      | nil => cases h2
      | cons x xs => cases h2; exact hne _ rfl rfl)]
    rcases List.mem_cons.mp h with rfl | h
    · rw [if_pos hc]; omega
    · have := ih h; omega

/-- Two positions of a text: the later one is reached from the earlier one by passing a piece of the text. -/
theorem pos_split {T : List Nat} {x y : Mark} (hx : IsPos T x) (hy : IsPos T y) (hle : x.index ≤ y.index) :
    ∃ u w, x = markOf u ∧ y = markOf (u ++ w) ∧ NoCut u w := by
  obtain ⟨u, v, h1, h2, h3⟩ := hx
  obtain ⟨u', v', k1, k2, k3⟩ := hy
  have hl : u.length ≤ u'.length := by rw [h2, k2] at hle; exact hle
  have hp : u <+: u' := by
    refine List.prefix_of_prefix_length_le ⟨v, h1.symm⟩ ⟨v', k1.symm⟩ hl
  obtain ⟨w, rfl⟩ := hp
  refine ⟨u, w, h2, k2, ?_⟩
  rintro ⟨a, b⟩
  refine h3 ⟨a, ?_⟩
  have : v = w ++ v' := by
    have := h1.symm.trans k1
    rw [List.append_assoc] at this
    exact List.append_cancel_left this
  cases w with
  | nil => cases b
  | cons z zs => rw [this]; simpa using b

theorem pos_line_le {T : List Nat} {x y : Mark} (hx : IsPos T x) (hy : IsPos T y) (hle : x.index ≤ y.index) :
    x.line ≤ y.line := by
  obtain ⟨u, w, rfl, rfl, hn⟩ := pos_split hx hy hle
  simp only [markOf, lineBreaks_append u w hn]
  omega

theorem pos_line_lt {T : List Nat} {x y : Mark} (hx : IsPos T x) (hy : IsPos T y) (hlt : x.index < y.index)
    (hc : y.column = 0) : x.line < y.line := by
  obtain ⟨u, w, rfl, rfl, hn⟩ := pos_split hx hy (by omega)
  simp only [markOf] at hlt hc ⊢
  rw [lineBreaks_append u w hn]
  have hw : w ≠ [] := by rintro rfl; simp at hlt
  obtain ⟨w', c, rfl⟩ : ∃ w' c, w = w' ++ [c] := ⟨w.dropLast, w.getLast hw, (List.dropLast_concat_getLast hw).symm⟩
  rw [← List.append_assoc, lastColumn_snoc] at hc
  have hb : isBreakChar c = true := by
    by_cases h : isBreakChar c = true
    · exact h
    · rw [if_neg h] at hc; omega
  have := lineBreaks_pos (l := w' ++ [c]) hb (by simp)
  omega

end LibYaml
