import Verif.Model.Scanner
import Verif.Spec.Marks
import Verif.Proofs.Prog

/-! Weakest preconditions for programs over the character buffer, and the rules of the elementary operations. -/

namespace LibYaml

open Spec

/-- Every outcome of `m` from state `s` and input `i` is a success satisfying `Q` or a failure satisfying `E`. -/
def pw {σ α : Type} (m : StateT σ Prog α) (Q : α → σ → In → Prop) (E : Fail → Prop) (s : σ) (i : In) : Prop :=
  match (m s).run i with
  | .ok ((a, s'), i') => Q a s' i'
  | .error e => E e

section rules
variable {σ α β : Type} {E : Fail → Prop} {s : σ} {i : In}

theorem pw_bind {m : StateT σ Prog α} {f : α → StateT σ Prog β} {Q : β → σ → In → Prop} :
    pw (m >>= f) Q E s i ↔ pw m (fun a s' i' => pw (f a) Q E s' i') E s i := by
  unfold pw
  have : (m >>= f) s = (m s).bind fun p => f p.1 p.2 := rfl
  rw [this, Prog.run_bind]
  cases (m s).run i with
  | error e => exact Iff.rfl
  | ok p => exact Iff.rfl

theorem pw_pure {a : α} {Q : α → σ → In → Prop} : pw (pure a) Q E s i ↔ Q a s i := Iff.rfl

theorem pw_get {Q : σ → σ → In → Prop} : pw (get : StateT σ Prog σ) Q E s i ↔ Q s s i := Iff.rfl

theorem pw_mono {m : StateT σ Prog α} {Q Q' : α → σ → In → Prop} {E' : Fail → Prop} (h : pw m Q E s i)
    (hQ : ∀ a s' i', Q a s' i' → Q' a s' i') (hE : ∀ e, E e → E' e) : pw m Q' E' s i := by
  unfold pw at *
  split <;> rename_i heq <;> rw [heq] at h
  · exact hQ _ _ _ h
  · exact hE _ h

theorem pw_ite {c : Prop} [Decidable c] {m m' : StateT σ Prog α} {Q : α → σ → In → Prop}
    (ht : c → pw m Q E s i) (hf : ¬ c → pw m' Q E s i) : pw (if c then m else m') Q E s i := by
  by_cases h : c
  · rw [if_pos h]; exact ht h
  · rw [if_neg h]; exact hf h

theorem pw_fail {e : Fail} {Q : α → σ → In → Prop} (h : E e) : pw (fun _ => .fail e) Q E s i := h

end rules

theorem pw_lexErr {α : Type} {Q : α → Mark → In → Prop} {E : Fail → Prop} {m : Mark} {i : In} {c : Option String} {cm : Mark}
    {p : String} (h : E (.scanner c cm p m)) : pw (lexErr c cm p) Q E m i := h

/-! ### Positions -/

theorem isBreakChar_eq (c : Nat) : isBreakChar c = isBreak c := by
  simp only [isBreakChar, isBreak, List.contains_cons, List.contains_nil, Bool.or_false]
  cases c == 0xD <;> cases c == 0xA <;> cases c == 0x85 <;> cases c == 0x2028 <;> rfl

theorem lineBreaks_cons {c : Nat} {r : List Nat} (h : ¬ (c = 0xD ∧ r.head? = some 0xA)) :
    lineBreaks (c :: r) = lineBreaks r + if isBreakChar c then 1 else 0 := by
  rw [lineBreaks]
  rintro r' rfl rfl
  exact h ⟨rfl, rfl⟩

theorem lineBreaks_crlf_cons (r : List Nat) : lineBreaks (0xD :: 0xA :: r) = lineBreaks r + 1 := by rw [lineBreaks]

theorem getLast?_cons_append (c : Nat) (u : List Nat) (d : Nat) (h : (c :: u).getLast? ≠ some d) (hu : u ≠ []) :
    u.getLast? ≠ some d := by
  cases u with
  | nil => exact absurd rfl hu
  | cons x xs => simpa using h

theorem lineBreaks_append (u v : List Nat) (h : NoCut u v) : lineBreaks (u ++ v) = lineBreaks u + lineBreaks v := by
  induction u using lineBreaks.induct with
  | case1 => simp [lineBreaks]
  | case2 r ih =>
    have hr : NoCut r v := by
      rintro ⟨h1, h2⟩
      refine h ⟨?_, h2⟩
      cases r with
      | nil => simp at h1
      | cons x xs => simpa using h1
    simp only [List.cons_append]
    rw [lineBreaks_crlf_cons, lineBreaks_crlf_cons, ih hr]; omega
  | case3 c r hne ih =>
    have hc : ¬ (c = 0xD ∧ r.head? = some 0xA) := by
      rintro ⟨rfl, h2⟩
      cases r with
      | nil => cases h2
      | cons x xs => cases h2; exact hne _ rfl rfl
    cases r with
    | nil =>
      have hcv : ¬ (c = 0xD ∧ v.head? = some 0xA) := by
        rintro ⟨rfl, h2⟩
        exact h ⟨rfl, h2⟩
      simp only [List.cons_append, List.nil_append]
      rw [lineBreaks_cons hcv, lineBreaks_cons hc]
      simp [lineBreaks]
      omega
    | cons x xs =>
      have hr : NoCut (x :: xs) v := by
        rintro ⟨h1, h2⟩
        exact h ⟨by simpa using h1, h2⟩
      simp only [List.cons_append] at ih ⊢
      rw [lineBreaks_cons (by simpa using hc), lineBreaks_cons hc, ih hr]; omega

theorem lastColumn_snoc (u : List Nat) (c : Nat) :
    lastColumn (u ++ [c]) = if isBreakChar c then 0 else lastColumn u + 1 := by
  simp only [lastColumn, List.reverse_append, List.reverse_cons, List.reverse_nil, List.nil_append, List.cons_append,
    List.takeWhile_cons]
  cases isBreakChar c <;> simp

theorem markOf_char {u : List Nat} {c : Nat} (hc : isBreak c = false) :
    markOf (u ++ [c]) = { markOf u with index := (markOf u).index + 1, column := (markOf u).column + 1 } := by
  have hb : isBreakChar c = false := by rw [isBreakChar_eq]; exact hc
  have hn : NoCut u [c] := by
    rintro ⟨_, h⟩
    cases h; simp [isBreak] at hc
  simp only [markOf, lastColumn_snoc, hb, lineBreaks_append u [c] hn]
  simp [lineBreaks_cons, lineBreaks, hb]

theorem markOf_break {u : List Nat} {c : Nat} (hc : isBreak c = true) (hn : NoCut u [c]) :
    markOf (u ++ [c]) = { markOf u with index := (markOf u).index + 1, line := (markOf u).line + 1, column := 0 } := by
  have hb : isBreakChar c = true := by rw [isBreakChar_eq]; exact hc
  simp only [markOf, lastColumn_snoc, hb, lineBreaks_append u [c] hn]
  simp [lineBreaks_cons, lineBreaks, hb]

theorem markOf_crlf {u : List Nat} :
    markOf (u ++ [0xD, 0xA]) = { markOf u with index := (markOf u).index + 2, line := (markOf u).line + 1, column := 0 } := by
  have hn : NoCut u [0xD, 0xA] := by rintro ⟨_, h⟩; cases h
  have h1 : lastColumn (u ++ [0xD, 0xA]) = 0 := by
    have : u ++ [0xD, 0xA] = (u ++ [0xD]) ++ [0xA] := by simp
    rw [this, lastColumn_snoc]; rfl
  simp only [markOf, h1, lineBreaks_append u _ hn, lineBreaks_crlf_cons]
  simp [lineBreaks]

/-! ### Where a program is -/

/-- The mark `m` and the input `i` are a position in the text `T`, whose end is the marker NUL if `e` is `none` and the
reader error `e` otherwise. -/
structure At (T : List Nat) (e : Option Fail) (m : Mark) (i : In) : Prop where
  path : ∃ u, T = u ++ i.cs ∧ m = markOf u ∧ NoCut u i.cs
  bad : i.bad = e
  le : i.avail ≤ i.cs.length
  ends : e = none → i.cs.getLast? = some 0

/-- `n` characters have been requested. -/
def Has (n : Nat) (i : In) : Prop := n ≤ i.avail ∨ (i.avail = i.cs.length ∧ i.bad = none)

variable {T : List Nat} {e : Option Fail} {m : Mark} {i : In} {α : Type}

theorem Has.mono {n k : Nat} (h : Has n i) (hk : k ≤ n) : Has k i := by
  rcases h with h | h
  · exact Or.inl (by omega)
  · exact Or.inr h

theorem At.index (h : At T e m i) : m.index + i.cs.length = T.length := by
  obtain ⟨u, h1, h2, _⟩ := h.path
  rw [h1, h2]; simp [markOf]

theorem At.ne_nil (h : At T e m i) {n : Nat} (hh : Has (n + 1) i) : i.cs ≠ [] := by
  intro hn
  rcases hh with hh | ⟨_, hb⟩
  · have := h.le; rw [hn] at this; simp at this; omega
  · have := h.ends (by rw [← h.bad]; exact hb); rw [hn] at this; cases this

theorem pw_cacheC {E : Fail → Prop} {n : Nat} {Q : Unit → Mark → In → Prop} (hn : n ≤ maxLookahead) (h : At T e m i)
    (hE : ∀ er, e = some er → E er)
    (hQ : ∀ i', At T e m i' → i'.cs = i.cs → Has n i' → Q () m i') : pw (cacheC n) Q E m i := by
  unfold pw cacheC
  simp only [Prog.run]
  unfold In.cache
  rw [if_neg (by omega)]
  by_cases h1 : n ≤ i.avail
  · rw [if_pos h1]; exact hQ i h rfl (Or.inl h1)
  rw [if_neg h1]
  by_cases h2 : n ≤ i.cs.length
  · rw [if_pos h2]
    exact hQ _ ⟨h.path, h.bad, h2, h.ends⟩ rfl (Or.inl (by simp))
  rw [if_neg h2]
  cases hb : i.bad with
  | some er => exact hE er (by rw [← h.bad, hb])
  | none => exact hQ _ ⟨h.path, by rw [← h.bad, hb], by simp, h.ends⟩ rfl (Or.inr ⟨rfl, rfl⟩)

/-- `peekC j` after `j` ASCII characters that are not the end marker. -/
theorem pw_peekC {E : Fail → Prop} {j : Nat} {Q : Nat → Mark → In → Prop} {pre r : List Nat} (h : At T e m i)
    (hh : Has (j + 1) i) (hcs : i.cs = pre ++ r) (hj : pre.length = j) (hpre : ∀ c ∈ pre, c ≠ 0 ∧ c < 0x80)
    (hQ : ∀ c r', r = c :: r' → Q c m i) : pw (peekC j) Q E m i := by
  have hr : r ≠ [] := by
    intro hr
    subst hr
    rcases hh with hh | ⟨_, hb⟩
    · have := h.le; rw [hcs] at this; simp at this; omega
    · have := h.ends (by rw [← h.bad]; exact hb)
      rw [hcs] at this
      simp at this
      exact (hpre 0 (List.mem_of_getLast? this)).1 rfl
  cases r with
  | nil => exact absurd rfl hr
  | cons c r' =>
    have ha : j < i.avail := by
      rcases hh with hh | ⟨ha, _⟩
      · omega
      · rw [ha, hcs]; simp; omega
    have hl : i.look j = .ok c := by
      unfold In.look
      have hget : i.cs[j]? = some c := by
        rw [hcs, List.getElem?_append_right (by omega), hj]; simp
      have hall : (i.cs.take j).all (· < 0x80) = true := by
        rw [hcs, ← hj, List.take_left']
        · exact List.all_eq_true.mpr fun x hx => by simpa using (hpre x hx).2
        · rfl
      rw [if_pos ⟨ha, hall⟩, hget]
    unfold pw peekC
    simp only [Prog.run]
    rw [hl]
    exact hQ c r' rfl

theorem pw_peek0 {E : Fail → Prop} {n : Nat} {Q : Nat → Mark → In → Prop} (h : At T e m i) (hh : Has (n + 1) i)
    (hQ : ∀ c r, i.cs = c :: r → Q c m i) : pw (peekC 0) Q E m i :=
  pw_peekC (pre := []) (r := i.cs) h (hh.mono (by omega)) rfl rfl (by simp) hQ

theorem pw_peek1 {E : Fail → Prop} {n : Nat} {Q : Nat → Mark → In → Prop} {c : Nat} {r : List Nat} (h : At T e m i)
    (hh : Has (n + 2) i) (hcs : i.cs = c :: r) (hc : c ≠ 0 ∧ c < 0x80)
    (hQ : ∀ d r', r = d :: r' → Q d m i) : pw (peekC 1) Q E m i :=
  pw_peekC (pre := [c]) (r := r) h (hh.mono (by omega)) (by simpa using hcs) rfl (by simpa using hc) hQ

theorem getLast_tail {c : Nat} {r : List Nat} (hc : c ≠ 0) (h : (c :: r).getLast? = some 0) : r.getLast? = some 0 := by
  cases r with
  | nil => simp at h; exact absurd h hc
  | cons x xs => simpa using h

theorem Has.tail {n c : Nat} {r : List Nat} (hcs : i.cs = c :: r) (h : Has (n + 1) i) :
    Has n { i with cs := r, avail := i.avail - 1 } := by
  rcases h with h | ⟨h1, h2⟩
  · exact Or.inl (by simp only; omega)
  · exact Or.inr ⟨by simp only; rw [h1, hcs]; simp, h2⟩

theorem skip_ok {n c : Nat} {r : List Nat} (hh : Has (n + 1) i) (hcs : i.cs = c :: r) :
    i.skip = .ok { i with cs := r, avail := i.avail - 1 } := by
  have ha : i.avail ≠ 0 := by
    rcases hh with hh | ⟨ha, _⟩
    · omega
    · rw [ha, hcs]; simp
  unfold In.skip
  rw [hcs]
  simp [ha]

theorem pw_skipC {E : Fail → Prop} {n c : Nat} {r : List Nat} {Q : Unit → Mark → In → Prop} (h : At T e m i)
    (hh : Has (n + 1) i) (hcs : i.cs = c :: r) (hc : c ≠ 0) (hb : isBreak c = false)
    (hQ : ∀ m' i', At T e m' i' → i'.cs = r → Has n i' →
      m' = { m with index := m.index + 1, column := m.column + 1 } → Q () m' i') : pw skipC Q E m i := by
  unfold pw skipC
  simp only [Prog.run]
  rw [skip_ok hh hcs]
  refine hQ _ { i with cs := r, avail := i.avail - 1 } ⟨?_, h.bad, ?_, ?_⟩ rfl (hh.tail hcs) rfl
  · obtain ⟨u, h1, h2, _⟩ := h.path
    refine ⟨u ++ [c], by simp [h1, hcs], ?_, ?_⟩
    · rw [markOf_char hb, ← h2]
    · rintro ⟨h3, _⟩
      simp at h3
      subst h3
      simp [isBreak] at hb
  · have := h.le; rw [hcs] at this; simp at this ⊢; omega
  · intro he
    have := h.ends he
    rw [hcs] at this
    exact getLast_tail hc this

theorem isBreak_ne_zero {c : Nat} (h : isBreak c = true) : c ≠ 0 := by
  rintro rfl; simp [isBreak] at h

/-- A single line break. -/
theorem pw_passBreak1 {E : Fail → Prop} {n c : Nat} {r : List Nat} {Q : Unit → Mark → In → Prop} (h : At T e m i)
    (hh : Has (n + 1) i) (hcs : i.cs = c :: r) (hb : isBreak c = true) (hcr : ¬ (c = 0xD ∧ r.head? = some 0xA))
    (hQ : ∀ m' i', At T e m' i' → i'.cs = r → Has n i' →
      m' = { m with index := m.index + 1, line := m.line + 1, column := 0 } → Q () m' i') : pw (passBreak 1) Q E m i := by
  unfold pw passBreak
  simp only [Prog.run]
  rw [skip_ok hh hcs]
  simp only [passBreak, Prog.run]
  refine hQ _ { i with cs := r, avail := i.avail - 1 } ⟨?_, h.bad, ?_, ?_⟩ rfl (hh.tail hcs) rfl
  · obtain ⟨u, h1, h2, h4⟩ := h.path
    refine ⟨u ++ [c], by simp [h1, hcs], ?_, ?_⟩
    · rw [markOf_break hb, ← h2]
      rintro ⟨h5, h6⟩
      simp at h6
      exact h4 ⟨h5, by rw [hcs]; simp [h6]⟩
    · rintro ⟨h3, h5⟩
      simp at h3
      exact hcr ⟨h3, h5⟩
  · have := h.le; rw [hcs] at this; simp at this ⊢; omega
  · intro he
    have := h.ends he
    rw [hcs] at this
    exact getLast_tail (isBreak_ne_zero hb) this

/-- CR LF. -/
theorem pw_passBreak2 {E : Fail → Prop} {n : Nat} {r : List Nat} {Q : Unit → Mark → In → Prop} (h : At T e m i)
    (hh : Has (n + 2) i) (hcs : i.cs = 0xD :: 0xA :: r)
    (hQ : ∀ m' i', At T e m' i' → i'.cs = r → Has n i' →
      m' = { m with index := m.index + 2, line := m.line + 1, column := 0 } → Q () m' i') : pw (passBreak 2) Q E m i := by
  have hav : 2 ≤ i.avail := by
    rcases hh with hh | ⟨ha, _⟩
    · omega
    · rw [ha, hcs]; simp
  unfold pw passBreak
  simp only [Prog.run]
  rw [skip_ok (n := n + 1) hh hcs]
  simp only [passBreak, Prog.run]
  have : ({ i with cs := 0xA :: r, avail := i.avail - 1 } : In).skip = .ok { i with cs := r, avail := i.avail - 2 } := by
    unfold In.skip
    simp only
    rw [if_neg (by omega)]
    rfl
  rw [this]
  refine hQ _ { i with cs := r, avail := i.avail - 2 } ⟨?_, h.bad, ?_, ?_⟩ rfl ?_ rfl
  · obtain ⟨u, h1, h2, h4⟩ := h.path
    refine ⟨u ++ [0xD, 0xA], by simp [h1, hcs], ?_, ?_⟩
    · rw [markOf_crlf, ← h2]
    · rintro ⟨h3, h5⟩
      simp at h3
  · have := h.le; rw [hcs] at this; simp at this ⊢; omega
  · intro he
    have := h.ends he
    rw [hcs] at this
    exact getLast_tail (c := 0xA) (by decide) (getLast_tail (c := 0xD) (by decide) this)
  · rcases hh with hh | ⟨h1, h2⟩
    · exact Or.inl (by simp only; omega)
    · exact Or.inr ⟨by simp only; rw [h1, hcs]; simp, h2⟩

/-- What `SKIP_LINE` and `READ_LINE` do on the characters: how many of them form the line break at the beginning. -/
def breakLen : List Nat → Nat
  | 0xD :: 0xA :: _ => 2
  | c :: _ => if isBreak c then 1 else 0
  | [] => 0

theorem breakLen_cons {c : Nat} {r : List Nat} (h : ¬ (c = 0xD ∧ r.head? = some 0xA)) :
    breakLen (c :: r) = if isBreak c then 1 else 0 := by
  rw [breakLen]
  rintro r' rfl rfl
  exact h ⟨rfl, rfl⟩

/-- The result of passing the line break at the beginning of `cs`, if there is one. -/
structure Passed (T : List Nat) (e : Option Fail) (m : Mark) (i : In) (m' : Mark) (i' : In) : Prop where
  pos : At T e m' i'
  cs : i'.cs = i.cs.drop (breakLen i.cs)
  mark : m' = if breakLen i.cs = 0 then m else { index := m.index + breakLen i.cs, line := m.line + 1, column := 0 }

theorem pw_skipLine {E : Fail → Prop} {Q : Unit → Mark → In → Prop} (h : At T e m i) (hh : Has 2 i)
    (hQ : ∀ m' i', Passed T e m i m' i' → Q () m' i') : pw skipLine Q E m i := by
  unfold skipLine
  rw [pw_bind]
  refine pw_peek0 (n := 1) h hh fun c r hcs => ?_
  refine pw_ite (fun hc => ?_) (fun hc => ?_)
  · have hc : c = 0xD := by simpa using hc
    subst hc
    rw [pw_bind]
    refine pw_peek1 (n := 0) h hh hcs (by decide) fun d r' hr => ?_
    subst hr
    by_cases hd : d = 0xA
    · subst hd
      refine pw_passBreak2 (n := 0) h hh hcs fun m' i' h1 h2 _ h3 => hQ m' i' ⟨h1, ?_, ?_⟩
      · rw [h2, hcs]; rfl
      · rw [h3, hcs]; rfl
    · rw [if_neg (by simpa using hd)]
      have hcr : ¬ ((0xD : Nat) = 0xD ∧ (d :: r').head? = some 0xA) := by simp [hd]
      refine pw_passBreak1 (n := 1) h hh hcs (by decide) hcr fun m' i' h1 h2 _ h3 => hQ m' i' ⟨h1, ?_, ?_⟩
      · rw [h2, hcs, breakLen_cons hcr]; rfl
      · rw [h3, hcs, breakLen_cons hcr]; rfl
  · have hc : c ≠ 0xD := by simpa using hc
    have hcr : ¬ (c = 0xD ∧ r.head? = some 0xA) := by simp [hc]
    refine pw_ite (fun hb => ?_) (fun hb => ?_)
    · refine pw_passBreak1 (n := 1) h hh hcs hb hcr fun m' i' h1 h2 _ h3 => hQ m' i' ⟨h1, ?_, ?_⟩
      · rw [h2, hcs, breakLen_cons hcr, if_pos hb]; rfl
      · rw [h3, hcs, breakLen_cons hcr, if_pos hb]; rfl
    · refine hQ m i ⟨h, ?_, ?_⟩
      · rw [hcs, breakLen_cons hcr, if_neg hb]; rfl
      · rw [hcs, breakLen_cons hcr, if_neg hb]; rfl

/-- A line break as it appears in a scalar: LS and PS are kept, everything else becomes LF. -/
def breakText : List Nat → Text
  | [] => []
  | c :: _ => if c == 0x2028 || c == 0x2029 then [c] else if isBreak c then [0xA] else []

theorem pw_readC {E : Fail → Prop} {n c : Nat} {r : List Nat} {Q : Text → Mark → In → Prop} {s : Text} (h : At T e m i)
    (hh : Has (n + 1) i) (hcs : i.cs = c :: r) (hc : c ≠ 0) (hb : isBreak c = false)
    (hQ : ∀ m' i', At T e m' i' → i'.cs = r → Has n i' →
      m' = { m with index := m.index + 1, column := m.column + 1 } → Q (s ++ [c]) m' i') : pw (readC s) Q E m i := by
  unfold readC
  rw [pw_bind]
  refine pw_peek0 h hh fun c' r' hcs' => ?_
  rw [hcs] at hcs'
  cases hcs'
  rw [pw_bind]
  exact pw_skipC h hh hcs hc hb hQ

theorem pw_readLine {E : Fail → Prop} {Q : Text → Mark → In → Prop} {s : Text} (h : At T e m i) (hh : Has 2 i)
    (hQ : ∀ m' i', Passed T e m i m' i' → Q (s ++ breakText i.cs) m' i') : pw (readLine s) Q E m i := by
  unfold readLine
  rw [pw_bind]
  refine pw_peek0 (n := 1) h hh fun c r hcs => ?_
  rw [hcs] at hQ
  refine pw_ite (fun hc => ?_) (fun hc => ?_)
  · have hc : c = 0xD := by simpa using hc
    subst hc
    rw [pw_bind]
    refine pw_peek1 (n := 0) h hh hcs (by decide) fun d r' hr => ?_
    subst hr
    rw [pw_bind]
    by_cases hd : d = 0xA
    · subst hd
      refine pw_passBreak2 (n := 0) h hh hcs fun m' i' h1 h2 _ h3 => hQ m' i' ⟨h1, ?_, ?_⟩
      · rw [h2, hcs]; rfl
      · rw [h3, hcs]; rfl
    · rw [if_neg (by simpa using hd)]
      have hcr : ¬ ((0xD : Nat) = 0xD ∧ (d :: r').head? = some 0xA) := by simp [hd]
      refine pw_passBreak1 (n := 1) h hh hcs (by decide) hcr fun m' i' h1 h2 _ h3 => hQ m' i' ⟨h1, ?_, ?_⟩
      · rw [h2, hcs, breakLen_cons hcr]; rfl
      · rw [h3, hcs, breakLen_cons hcr]; rfl
  · have hc : c ≠ 0xD := by simpa using hc
    have hcr : ¬ (c = 0xD ∧ r.head? = some 0xA) := by simp [hc]
    refine pw_ite (fun hb => ?_) (fun hb => ?_)
    · have hbr : isBreak c = true := by
        simp only [Bool.or_eq_true, beq_iff_eq] at hb; rcases hb with rfl | rfl <;> rfl
      rw [pw_bind]
      refine pw_passBreak1 (n := 1) h hh hcs hbr hcr fun m' i' h1 h2 _ h3 => ?_
      have : breakText (c :: r) = [0xA] := by
        simp only [Bool.or_eq_true, beq_iff_eq] at hb; rcases hb with rfl | rfl <;> rfl
      rw [this] at hQ
      refine hQ m' i' ⟨h1, ?_, ?_⟩
      · rw [h2, hcs, breakLen_cons hcr, if_pos hbr]; rfl
      · rw [h3, hcs, breakLen_cons hcr, if_pos hbr]; rfl
    refine pw_ite (fun hb2 => ?_) (fun hb2 => ?_)
    · have hbr : isBreak c = true := by
        simp only [Bool.or_eq_true, beq_iff_eq] at hb2; rcases hb2 with rfl | rfl <;> rfl
      rw [pw_bind]
      refine pw_passBreak1 (n := 1) h hh hcs hbr hcr fun m' i' h1 h2 _ h3 => ?_
      have : breakText (c :: r) = [c] := by simp only [breakText]; rw [if_pos hb2]
      rw [this] at hQ
      refine hQ m' i' ⟨h1, ?_, ?_⟩
      · rw [h2, hcs, breakLen_cons hcr, if_pos hbr]; rfl
      · rw [h3, hcs, breakLen_cons hcr, if_pos hbr]; rfl
    · have hbr : isBreak c = false := by
        simp only [Bool.or_eq_true, beq_iff_eq, not_or] at hb hb2
        simp [isBreak, hc, hb.1, hb.2, hb2.1, hb2.2]
      have : breakText (c :: r) = [] := by simp only [breakText]; rw [if_neg hb2, hbr]; rfl
      rw [this, List.append_nil] at hQ
      refine hQ m i ⟨h, ?_, ?_⟩
      · rw [hcs, breakLen_cons hcr, hbr]; rfl
      · rw [hcs, breakLen_cons hcr, hbr]; rfl

end LibYaml
