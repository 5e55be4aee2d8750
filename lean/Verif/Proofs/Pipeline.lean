import Verif.Proofs.ScannerCalls
import Verif.Proofs.ScannerEnd
import Verif.Proofs.SrcSim
import Verif.Proofs.Parser

/-!
The scanner over the reader as a source of tokens for the parser: in every state that occurs, reading a token succeeds or
reports an error, also behind STREAM-END.
-/

namespace LibYaml

open Spec

/-- Faults are excluded: every failure is an error reported to the caller. -/
local notation "safe" m:max Q:max s:max i:max => pw m Q Fail.reported s i

variable {T : List Nat} {e : Option Fail} {o : Oracle} {f : Nat}

/-- The states of scanner and reader that occur, with the tokens delivered before STREAM-END. -/
inductive Good (T : List Nat) (e : Option Fail) (D : List Token) (x : Scanner × RS) : Prop
  | going (i : In) (next : LibYaml.Next T e D x.1 i) (rel : Rel x.2 i) (bad : i.bad = e)
  | over (i : In) (over : Over x.1 i) (rel : Rel x.2 i) (bad : i.bad = e)

theorem next_bound {D : List Token} {s : Scanner} {i : In} (h : Next T e D s i) : D.length ≤ 4 * T.length + 1 := by
  cases h with
  | fresh hD _ => subst hD; simp
  | running h =>
    have h1 := h.base.count
    have h2 := h.base.pos.index
    rw [List.length_append] at h1
    omega
  | ended h =>
    obtain ⟨A0, B, t, m, u, r, h1, hT, hm, _, _, _, h2⟩ := h.final.parts
    have : 1 ≤ s.tokens.length := by
      cases ht : s.tokens with
      | nil => exact absurd ht h.ne
      | cons _ _ => simp
    rw [List.length_append] at h2
    have : m.index ≤ T.length := by rw [hm, hT]; simp [markOf]
    omega

/-- What reading a token does. -/
def GoodStep (T : List Nat) (e : Option Fail) (D : List Token) : Except Fail ((Token × Scanner) × RS) → Prop
  | .error er => er.reported
  | .ok ((t, s), st) => (t.data = .streamEnd ∧ Good T e D (s, st)) ∨
      (t.data ≠ .streamEnd ∧ D.length + 1 ≤ 4 * T.length + 1 ∧ Good T e (D ++ [t]) (s, st))

theorem good_step {D : List Token} {x : Scanner × RS} (hb : BadOk e) (hf : T.length + 2 < f) (h : Good T e D x) :
    GoodStep T e D (onReader o (nextToken f) x.1 x.2) := by
  have hred : ∀ {P : Token → Scanner → In → Prop} {i : In}, Rel x.2 i → i.bad = e → safe (nextToken f) P x.1 i →
      (∃ er, onReader o (nextToken f) x.1 x.2 = .error er ∧ er.reported) ∨
      (∃ t s st i', onReader o (nextToken f) x.1 x.2 = .ok ((t, s), st) ∧ P t s i' ∧ Rel st i' ∧ i'.bad = e) := by
    intro P i hr hbad hs
    unfold pw at hs
    have hub : (nextToken f x.1).run i ≠ .error .ub := by intro hu; rw [hu] at hs; exact hs
    rcases runR_refines o (nextToken f x.1) x.2 i hr hub with ⟨er, h1, h2⟩ | ⟨er, h1, h2⟩ | ⟨⟨t, s⟩, i', st, h1, h2, h3⟩
    · refine .inl ⟨er, h1, ?_⟩
      rcases h2 with ⟨_, off, rfl⟩ | h2
      · trivial
      · exact hb.reported (by rw [← hbad]; exact h2)
    · rw [h1] at hs; exact .inl ⟨er, h2, hs⟩
    · rw [h1] at hs; exact .inr ⟨t, s, st, i', h2, hs, h3, by rw [← hbad]; exact Prog.run_bad _ _ h1⟩
  cases h with
  | going i next rel bad =>
    rcases hred rel bad (nextToken_reported hb next hf) with ⟨er, h1, h2⟩ | ⟨t, s, st, i', h1, h2, h3, h4⟩
    · rw [h1]; exact h2
    · rw [h1]
      have hgo : Next T e (D ++ [t]) s i' → D.length + 1 ≤ 4 * T.length + 1 ∧ Good T e (D ++ [t]) (s, st) := fun hn =>
        ⟨by have := next_bound hn; simpa using this, .going i' hn h3 h4⟩
      cases h2 with
      | running hr ht => exact .inr ⟨ht, hgo (.running hr)⟩
      | ended hr ht => exact .inr ⟨ht, hgo (.ended hr)⟩
      | done _ ht hr he hs => exact .inl ⟨ht, .over i' ⟨hr, he, hs⟩ h3 h4⟩
  | over i ov rel bad =>
    rcases hred rel bad (safe_nextOver (by omega) (by rw [bad]; exact hb) ov) with ⟨er, h1, h2⟩ | ⟨t, s, st, i', h1, ⟨h2, h5, _⟩, h3, h4⟩
    · rw [h1]; exact h2
    · rw [h1]; exact .inl ⟨h2, .over i' h5 h3 h4⟩

/-- A state with the proof that it occurs. -/
structure GState (T : List Nat) (e : Option Fail) where
  x : Scanner × RS
  D : List Token
  good : Good T e D x

/-- Number of tokens that may still come before STREAM-END, and one. -/
def GState.left (g : GState T e) : Nat := 4 * T.length + 2 - g.D.length

/-- The result of reading a token, with the proof. -/
def goodOf {D : List Token} : (r : Except Fail ((Token × Scanner) × RS)) → GoodStep T e D r → Except Fail (Token × GState T e)
  | .error er, _ => .error er
  | .ok ((t, s), st), h =>
    if ht : t.data = .streamEnd then .ok (t, ⟨(s, st), D, h.elim (·.2) fun k => absurd ht k.1⟩)
    else .ok (t, ⟨(s, st), D ++ [t], h.elim (fun k => absurd k.1 ht) (·.2.2)⟩)

/-- The source restricted to the states that occur. -/
def goodSrc (o : Oracle) (hb : BadOk e) (hf : T.length + 2 < f) : TokSrc (GState T e) where
  next := fun g => goodOf _ (good_step (o := o) hb hf g.good)
  depth := fun g => g.x.1.indents.length + g.x.1.flowLevel

theorem goodOf_error {D : List Token} {r : Except Fail ((Token × Scanner) × RS)} {h : GoodStep T e D r} {er : Fail}
    (hr : goodOf r h = .error er) : er.reported := by
  match r with
  | .error er' => simp only [goodOf] at hr; cases hr; exact h
  | .ok ((t, s), st) =>
    simp only [goodOf] at hr
    split at hr <;> cases hr

theorem good_error (hb : BadOk e) (hf : T.length + 2 < f) {g : GState T e} {er : Fail}
    (h : (goodSrc o hb hf).next g = .error er) : er.reported := goodOf_error h

theorem good_safe (hb : BadOk e) (hf : T.length + 2 < f) : (goodSrc o hb hf : TokSrc (GState T e)).Safe := by
  intro g er h hu
  have := good_error hb hf h
  subst hu
  exact this

theorem good_left (hb : BadOk e) (hf : T.length + 2 < f) {g g' : GState T e} {t : Token}
    (h : (goodSrc o hb hf).next g = .ok (t, g')) : g'.left ≤ g.left ∧ (t.data ≠ .streamEnd → g'.left < g.left) := by
  have : ∀ {r : Except Fail ((Token × Scanner) × RS)} (h : GoodStep T e g.D r), goodOf r h = .ok (t, g') →
      g'.left ≤ g.left ∧ (t.data ≠ .streamEnd → g'.left < g.left) := by
    intro r hs h
    match r with
    | .error er' => simp only [goodOf] at h; cases h
    | .ok ((t', s), st) =>
      simp only [goodOf] at h
      split at h
      next ht => cases h; exact ⟨Nat.le_refl _, fun h => absurd ht h⟩
      next ht =>
        cases h
        have : g.D.length + 1 ≤ 4 * T.length + 1 := by
          rcases hs with k | k
          · exact absurd k.1 ht
          · exact k.2.1
        unfold GState.left
        simp only [List.length_append, List.length_cons, List.length_nil]
        omega
  exact this _ h

/-- Restricting the source changes nothing. -/
theorem good_sim (o : Oracle) (hb : BadOk e) (hf : T.length + 2 < f) :
    Simulates (goodSrc o hb hf : TokSrc (GState T e)) (scannerSrc o f) (fun g x => x = g.x) := by
  intro g x hx
  subst hx
  refine ⟨rfl, ?_⟩
  have hg : (goodSrc o hb hf).next g = goodOf _ (good_step (o := o) hb hf g.good) := rfl
  have hn : (scannerSrc o f).next g.x = match onReader o (nextToken f) g.x.1 g.x.2 with
    | .error e => .error e
    | .ok ((t, s), st) => .ok (t, (s, st)) := rfl
  rw [hg, hn]
  generalize good_step (o := o) hb hf g.good = pf
  revert pf
  generalize onReader o (nextToken f) g.x.1 g.x.2 = r
  intro pf
  match r with
  | .error er' => rfl
  | .ok ((t', s), st) =>
    by_cases ht : t'.data = .streamEnd
    · simp only [goodOf, dif_pos ht, and_self]
    · simp only [goodOf, dif_neg ht, and_self]

/-- The state at the beginning. -/
theorem good_start {enc : Option Enc} {bytes : List UInt8} {good : List Nat} {tail : List UInt8}
    (hsize : bytes.length < maxFileSize) (hs : Split (chosen enc bytes).1 (chosen enc bytes).2 good tail) :
    Good (inputOf enc bytes good tail).cs (inputOf enc bytes good tail).bad [] ((scanStart enc bytes).scanner, (scanStart enc bytes).input) := by
  cases scanInv_start hsize hs with
  | going D i hout _ _ next rel bad =>
    cases D with
    | nil => exact .going i next rel bad
    | cons t D => cases hout
  | ended D j hout hend => cases hend
  | failed D j er i hout _ herr => cases herr

/-- Behind the end the scanner delivers STREAM-END only. -/
theorem over_step {x x' : Scanner × RS} {i : In} {t : Token} (hb : BadOk e) (hf : 2 ≤ f) (ov : Over x.1 i) (rel : Rel x.2 i) (bad : i.bad = e)
    (h : (scannerSrc o f).next x = .ok (t, x')) : t.data = .streamEnd ∧ ∃ i', Over x'.1 i' ∧ Rel x'.2 i' ∧ i'.bad = e := by
  have hs := safe_nextOver hf (by rw [bad]; exact hb) ov
  have hn : (scannerSrc o f).next x = match onReader o (nextToken f) x.1 x.2 with
    | .error e => .error e
    | .ok ((t, s), st) => .ok (t, (s, st)) := rfl
  unfold pw at hs
  have hub : (nextToken f x.1).run i ≠ .error .ub := by intro hu; rw [hu] at hs; exact hs
  have hr : onReader o (nextToken f) x.1 x.2 = (nextToken f x.1).runR o x.2 := rfl
  rw [hn, hr] at h
  rcases runR_refines o (nextToken f x.1) x.2 i rel hub with ⟨er, h1, h2⟩ | ⟨er, h1, h2⟩ | ⟨⟨t', s⟩, i', st, h1, h2, h3⟩
  · rw [h1] at h; cases h
  · rw [h2] at h; cases h
  · rw [h2] at h
    cases h
    rw [h1] at hs
    obtain ⟨k1, k2, k3, _⟩ := hs
    exact ⟨k1, i', k2, h3, by rw [k3]; exact bad⟩

/-- The step to STREAM-END. -/
theorem last_step {D : List Token} {x x' : Scanner × RS} {i : In} {t : Token} (hb : BadOk e) (hf : T.length + 2 < f)
    (hnext : LibYaml.Next T e D x.1 i) (rel : Rel x.2 i) (bad : i.bad = e) (h : (scannerSrc o f).next x = .ok (t, x'))
    (ht : t.data = .streamEnd) : Final T (D ++ [t]) ∧ ∃ i', Over x'.1 i' ∧ Rel x'.2 i' ∧ i'.bad = e := by
  have hs := nextToken_reported hb hnext hf
  have hn : (scannerSrc o f).next x = match onReader o (nextToken f) x.1 x.2 with
    | .error e => .error e
    | .ok ((t, s), st) => .ok (t, (s, st)) := rfl
  unfold pw at hs
  have hub : (nextToken f x.1).run i ≠ .error .ub := by intro hu; rw [hu] at hs; exact hs
  have hr : onReader o (nextToken f) x.1 x.2 = (nextToken f x.1).runR o x.2 := rfl
  rw [hn, hr] at h
  rcases runR_refines o (nextToken f x.1) x.2 i rel hub with ⟨er, h1, h2⟩ | ⟨er, h1, h2⟩ | ⟨⟨t', s⟩, i', st, h1, h2, h3⟩
  · rw [h1] at h; cases h
  · rw [h2] at h; cases h
  · rw [h2] at h
    cases h
    rw [h1] at hs
    cases hs with
    | running _ hne => exact absurd ht hne
    | ended _ hne => exact absurd ht hne
    | done hfin _ hr he hs => exact ⟨hfin, i', ⟨hr, he, hs⟩, h3, by rw [← bad]; exact Prog.run_bad _ _ h1⟩

/-- States over the characters and over the reader that correspond, in a text without undecodable place. -/
def OnText (T : List Nat) (y : Scanner × In) (x : Scanner × RS) : Prop :=
  x.1 = y.1 ∧ Rel x.2 y.2 ∧ y.2.bad = none ∧ ((∃ D, LibYaml.Next T none D y.1 y.2) ∨ Over y.1 y.2)

/-- If the handler does not fail and the whole input is decodable, the scanner gives the same over the characters. -/
theorem text_sim (ho : NoFail o) (hf : T.length + 2 < f) : Simulates (textSrc f) (scannerSrc o f) (OnText T) := by
  rintro ⟨s, i⟩ ⟨s', st⟩ ⟨hs, hr, hb, hn⟩
  simp only at hs hr hb hn
  subst hs
  refine ⟨rfl, ?_⟩
  have hbo : BadOk (none : Option Fail) := by intro er h; cases h
  have h1 : (textSrc f).next (s', i) = match (nextToken f s').run i with
    | .error e => .error e
    | .ok ((t, s), i) => .ok (t, (s, i)) := rfl
  have h2 : (scannerSrc o f).next (s', st) = match (nextToken f s').runR o st with
    | .error e => .error e
    | .ok ((t, s), st) => .ok (t, (s, st)) := rfl
  have hsafe : safe (nextToken f) (fun _ s i => (∃ D, LibYaml.Next T none D s i) ∨ Over s i) s' i := by
    rcases hn with ⟨D, hn⟩ | hn
    · refine pw_mono (nextToken_reported hbo hn hf) ?_ (fun _ h => h)
      intro t s i ha
      cases ha with
      | running hr ht => exact .inl ⟨_, .running hr⟩
      | ended hr ht => exact .inl ⟨_, .ended hr⟩
      | done _ ht hr he hs => exact .inr ⟨hr, he, hs⟩
    · exact pw_mono (safe_nextOver (by omega) (by rw [hb]; exact hbo) hn) (fun t s i h => .inr h.2.1) (fun _ h => h)
  unfold pw at hsafe
  have hub : (nextToken f s').run i ≠ .error .ub := by intro hu; rw [hu] at hsafe; exact hsafe
  rw [h1, h2]
  rcases runR_refines o (nextToken f s') st i hr hub with ⟨er, h1, h2⟩ | ⟨er, h1, h2⟩ | ⟨⟨t', s⟩, i', st', h1, h2, h3⟩
  · exfalso
    rcases h2 with ⟨h, _⟩ | h
    · exact h ho
    · rw [hb] at h; cases h
  · rw [h1, h2]
  · rw [h1] at hsafe
    rw [h1, h2]
    exact ⟨rfl, rfl, h3, by rw [← hb]; exact Prog.run_bad _ _ h1, hsafe⟩

end LibYaml
