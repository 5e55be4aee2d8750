import Verif.Proofs.Lexer
import Verif.Spec.Tokens

/-! The lexical functions stay within the requested characters, terminate, and keep exact marks. -/

namespace LibYaml

open Spec

variable {T : List Nat} {e : Option Fail} {m : Mark} {i : In} {α : Type}

/-- The mark is the position of a prefix of `T` that does not end inside CR LF. -/
abbrev OnPath (T : List Nat) (x : Mark) : Prop := IsPos T x

theorem At.onPath (h : At T e m i) : OnPath T m := by
  obtain ⟨u, h1, h2, h3⟩ := h.path
  exact ⟨u, i.cs, h1, h2, h3⟩

/-- What follows the text, if it does not end there, is a reader error. -/
def BadOk (e : Option Fail) : Prop := ∀ er, e = some er → ∃ p off v, er = .reader p off v

/-- A position in the text, not behind the NUL at its end. -/
def SpotIn (T : List Nat) (e : Option Fail) (x : Mark) : Prop := IsPos T x ∧ (e = none → x.index < T.length)

theorem At.spot (h : At T e m i) : SpotIn T e m := by
  refine ⟨h.onPath, fun he => ?_⟩
  have h1 := h.index
  have h2 := h.ends he
  cases hc : i.cs with
  | nil => rw [hc] at h2; cases h2
  | cons a r => rw [hc] at h1; simp at h1; omega

/-- A failure of a function called at the mark `start`: an error reported to the caller; an error of the scanner names
`start` as its context and a position in the text as the place of the problem. -/
def Points (T : List Nat) (e : Option Fail) (start : Mark) (er : Fail) : Prop :=
  er.reported ∧ ∀ c cm p pm, er = .scanner c cm p pm → cm = start ∧ SpotIn T e pm

variable {start : Mark}

/-- Faults are excluded, and the marks of errors are as said above. -/
local notation "safe" m:max Q:max s:max i:max => pw m Q (Points T e start) s i

theorem BadOk.points (hb : BadOk e) {er : Fail} (h : e = some er) : Points T e start er := by
  obtain ⟨p, off, v, rfl⟩ := hb er h
  exact ⟨trivial, fun _ _ _ _ h => by cases h⟩

/-- Forgetting where the errors point. -/
theorem pw_reported {σ α : Type} {p : StateT σ Prog α} {Q : α → σ → In → Prop} {s : σ} {i : In} (h : pw p Q (Points T e start) s i) :
    pw p Q Fail.reported s i :=
  pw_mono h (fun _ _ _ h => h) (fun _ h => h.1)

theorem BadOk.reported (hb : BadOk e) {er : Fail} (h : e = some er) : er.reported := by
  obtain ⟨p, off, v, rfl⟩ := hb er h
  trivial

theorem safe_cache {n : Nat} {Q : Unit → Mark → In → Prop} (hb : BadOk e) (h : At T e m i) (hn : n ≤ maxLookahead)
    (hQ : ∀ i', At T e m i' → i'.cs = i.cs → Has n i' → Q () m i') : safe (cacheC n) Q m i :=
  pw_cacheC hn h (fun _ => hb.points) hQ

theorem safe_err {Q : α → Mark → In → Prop} {c : Option String} {p : String} (h : At T e m i) : safe (lexErr c start p) Q m i :=
  pw_lexErr ⟨trivial, fun _ _ _ _ h' => by cases h'; exact ⟨rfl, h.spot⟩⟩

theorem safe_skipWhile {p : Nat → Bool} {n : Nat} {Q : Unit → Mark → In → Prop} (hb : BadOk e) (h : At T e m i) (hh : Has 1 i)
    (hn : i.cs.length < n) (h0 : p 0 = false) (hp : ∀ c, p c = true → isBreak c = false)
    (hQ : ∀ m' i', At T e m' i' → i'.cs.length ≤ i.cs.length → Has 1 i' → (∀ c r, i'.cs = c :: r → p c = false) →
      Q () m' i') : safe (skipWhile p n) Q m i := by
  induction n generalizing m i with
  | zero => omega
  | succ n ih =>
    unfold skipWhile
    rw [pw_bind]
    refine pw_peek0 (n := 0) h hh fun c r hcs => ?_
    refine pw_ite (fun hc => ?_) (fun hc => ?_)
    · rw [pw_bind]
      refine pw_skipC (n := 0) h hh hcs (by rintro rfl; rw [h0] at hc; cases hc) (hp c hc) fun m1 i1 h1 c1 _ _ => ?_
      rw [pw_bind]
      refine safe_cache hb h1 (by decide) fun i2 h2 c2 hh2 => ?_
      have hl : i2.cs.length + 1 = i.cs.length := by rw [c2, c1, hcs]; rfl
      exact ih h2 hh2 (by omega) fun m' i' k1 k2 k3 k4 => hQ m' i' k1 (by omega) k3 k4
    · refine hQ m i h (Nat.le_refl _) hh fun c' r' hcs' => ?_
      rw [hcs] at hcs'; cases hcs'
      simpa using hc

theorem safe_readWhile {p : Nat → Bool} {n : Nat} {s : Text} {Q : Text → Mark → In → Prop} (hb : BadOk e) (h : At T e m i)
    (hh : Has 1 i) (hn : i.cs.length < n) (h0 : p 0 = false) (hp : ∀ c, p c = true → isBreak c = false)
    (hQ : ∀ s' m' i', At T e m' i' → i'.cs.length ≤ i.cs.length → Has 1 i' → (∀ c r, i'.cs = c :: r → p c = false) →
      Q s' m' i') : safe (readWhile p n s) Q m i := by
  induction n generalizing m i s with
  | zero => omega
  | succ n ih =>
    unfold readWhile
    rw [pw_bind]
    refine pw_peek0 (n := 0) h hh fun c r hcs => ?_
    refine pw_ite (fun hc => ?_) (fun hc => ?_)
    · rw [pw_bind]
      refine pw_readC (n := 0) h hh hcs (by rintro rfl; rw [h0] at hc; cases hc) (hp c hc) fun m1 i1 h1 c1 _ _ => ?_
      rw [pw_bind]
      refine safe_cache hb h1 (by decide) fun i2 h2 c2 hh2 => ?_
      have hl : i2.cs.length + 1 = i.cs.length := by rw [c2, c1, hcs]; rfl
      exact ih h2 hh2 (by omega) fun s' m' i' k1 k2 k3 k4 => hQ s' m' i' k1 (by omega) k3 k4
    · refine hQ s m i h (Nat.le_refl _) hh fun c' r' hcs' => ?_
      rw [hcs] at hcs'; cases hcs'
      simpa using hc

theorem safe_checkSeq {E : Fail → Prop} {cs pre rest : List Nat} {Q : Bool → Mark → In → Prop} (h : At T e m i)
    (hh : Has (pre.length + cs.length) i) (hcs : i.cs = pre ++ rest) (hpre : ∀ c ∈ pre, c ≠ 0 ∧ c < 0x80)
    (hc : ∀ c ∈ cs, c ≠ 0 ∧ c < 0x80)
    (ht : ∀ r, rest = cs ++ r → Q true m i) (hf : (¬ ∃ r, rest = cs ++ r) → Q false m i) :
    pw (checkSeq pre.length cs) Q E m i := by
  induction cs generalizing pre rest with
  | nil => exact ht rest rfl
  | cons c cs ih =>
    unfold checkSeq
    rw [pw_bind]
    refine pw_peekC h (hh.mono (by simp)) hcs rfl hpre fun d r hr => ?_
    subst hr
    refine pw_ite (fun hd => ?_) (fun hd => ?_)
    · have hd : d = c := by simpa using hd
      subst hd
      have := ih (pre := pre ++ [d]) (rest := r) (by simpa [Nat.add_comm, Nat.add_left_comm] using hh) (by simpa using hcs)
        (by intro x hx; rcases List.mem_append.mp hx with hx | hx
            · exact hpre x hx
            · simp at hx; subst hx; exact hc x (by simp))
        (fun x hx => hc x (by simp [hx])) (fun r' hr => ht r' (by simp [hr]))
        (fun hn => hf fun ⟨r', hr⟩ => hn ⟨r', by simpa using hr⟩)
      simpa using this
    · exact hf fun ⟨r', hr⟩ => hd (by simp at hr; simp [hr.1])

/-- `docMark` recognises three times `c` at the beginning of a line before a blank, a line break or the end. -/
theorem pw_docMark {E : Fail → Prop} {c : Nat} {Q : Bool → Mark → In → Prop} (h : At T e m i) (hh : Has 4 i)
    (hc : c ≠ 0 ∧ c < 0x80)
    (ht : ∀ d r, m.column = 0 → i.cs = c :: c :: c :: d :: r → isBlankz d = true → Q true m i)
    (hf : (¬ ∃ d r, m.column = 0 ∧ i.cs = c :: c :: c :: d :: r ∧ isBlankz d = true) → Q false m i) :
    pw (docMark c) Q E m i := by
  unfold docMark
  rw [pw_bind, pw_get]
  refine pw_ite (fun h0 => ?_) (fun h0 => ?_)
  · rw [pw_bind]
    refine safe_checkSeq (pre := []) (rest := i.cs) (cs := [c, c, c]) h (hh.mono (by simp)) rfl (by simp)
      (by simpa using hc) (fun r hr => ?_) (fun hn => ?_)
    · rw [if_pos rfl, pw_bind]
      refine pw_peekC (pre := [c, c, c]) (r := r) h hh hr rfl (by simpa using hc) fun d r' hd => ?_
      subst hd
      cases hz : isBlankz d with
      | true => exact ht d r' h0 (by simpa using hr) hz
      | false =>
        refine hf ?_
        rintro ⟨d', r'', _, h2, h3⟩
        rw [hr] at h2
        simp at h2
        rw [← h2.1, hz] at h3
        cases h3
    · rw [if_neg (by simp)]
      refine hf ?_
      rintro ⟨d', r'', _, h2, h3⟩
      exact hn ⟨_, h2⟩
  · refine hf ?_
    rintro ⟨d', r'', h2, _⟩
    exact h0 h2

theorem safe_docIndicator {E : Fail → Prop} {Q : Bool → Mark → In → Prop} (h : At T e m i) (hh : Has 4 i)
    (hQ : ∀ b, Q b m i) : pw docIndicator Q E m i := by
  unfold docIndicator
  rw [pw_bind]
  refine pw_docMark h hh (by decide) (fun d r _ _ _ => ?_) (fun _ => ?_)
  · rw [if_pos rfl]; exact hQ _
  · rw [if_neg (by simp)]
    exact pw_docMark h hh (by decide) (fun _ _ _ _ _ => hQ _) (fun _ => hQ _)

theorem safe_skipComment {n : Nat} {Q : Unit → Mark → In → Prop} (hb : BadOk e) (h : At T e m i) (hh : Has 1 i)
    (hn : i.cs.length < n)
    (hQ : ∀ m' i', At T e m' i' → i'.cs.length ≤ i.cs.length → Has 1 i' → Q () m' i') : safe (skipComment n) Q m i := by
  unfold skipComment
  rw [pw_bind]
  refine pw_peek0 (n := 0) h hh fun c r hcs => ?_
  refine pw_ite (fun _ => ?_) (fun _ => ?_)
  · exact safe_skipWhile hb h hh hn (by decide) (by
      intro c hc
      simp only [isBreakz, Bool.not_eq_true', Bool.or_eq_false_iff] at hc
      exact hc.1) fun m' i' h1 h2 h3 _ => hQ m' i' h1 h2 h3
  · exact hQ m i h (Nat.le_refl _) hh

theorem passed_len {m' : Mark} {i' : In} (h : Passed T e m i m' i') : i'.cs.length ≤ i.cs.length := by
  rw [h.cs]; simp

theorem breakLen_pos {c : Nat} {r : List Nat} (h : isBreak c = true) : 1 ≤ breakLen (c :: r) := by
  by_cases hcr : c = 0xD ∧ r.head? = some 0xA
  · obtain ⟨rfl, h2⟩ := hcr
    cases r with
    | nil => cases h2
    | cons x xs => cases h2; simp [breakLen]
  · rw [breakLen_cons hcr, if_pos h]; omega

theorem passed_lt {m' : Mark} {i' : In} {c : Nat} {r : List Nat} (h : Passed T e m i m' i') (hcs : i.cs = c :: r)
    (hc : isBreak c = true) : i'.cs.length < i.cs.length := by
  have := breakLen_pos (r := r) hc
  rw [h.cs, hcs]
  simp only [List.length_drop, List.length_cons]
  omega

theorem isBlank_props {c : Nat} (h : isBlank c = true) : c ≠ 0 ∧ c < 0x80 ∧ isBreak c = false := by
  simp only [isBlank, isSpace, isTab, Bool.or_eq_true, beq_iff_eq] at h
  rcases h with rfl | rfl <;> decide

theorem isSpace_props {c : Nat} (h : isSpace c = true) : c ≠ 0 ∧ c < 0x80 ∧ isBreak c = false := by
  simp only [isSpace, beq_iff_eq] at h
  subst h; decide

theorem isDigit_props {c : Nat} (h : isDigit c = true) : c ≠ 0 ∧ c < 0x80 ∧ isBreak c = false := by
  simp only [isDigit, Bool.and_eq_true, decide_eq_true_eq] at h
  refine ⟨by omega, by omega, ?_⟩
  simp only [isBreak, Bool.or_eq_false_iff, beq_eq_false_iff_ne]
  omega

theorem isHex_props {c : Nat} (h : isHex c = true) : c ≠ 0 ∧ c < 0x80 ∧ isBreak c = false := by
  simp only [isHex, Bool.and_eq_true, Bool.or_eq_true, decide_eq_true_eq] at h
  refine ⟨by omega, by omega, ?_⟩
  simp only [isBreak, Bool.or_eq_false_iff, beq_eq_false_iff_ne]
  omega

theorem isAlpha_props {c : Nat} (h : isAlpha c = true) : c ≠ 0 ∧ c < 0x80 ∧ isBreak c = false := by
  simp only [isAlpha, Bool.and_eq_true, Bool.or_eq_true, decide_eq_true_eq, beq_iff_eq] at h
  refine ⟨by omega, by omega, ?_⟩
  simp only [isBreak, Bool.or_eq_false_iff, beq_eq_false_iff_ne]
  omega

theorem isUri_props {b : Bool} {c : Nat} (h : isUri b c = true) : c ≠ 0 ∧ c < 0x80 ∧ isBreak c = false := by
  by_cases ha : isAlpha c = true
  · exact isAlpha_props ha
  have h' : 33 ≤ c ∧ c < 0x80 := by
    cases b <;> simp only [isUri, ha, Bool.and_eq_true, Bool.or_eq_true, beq_iff_eq, Bool.false_eq_true, false_or,
      false_and, or_false, true_and] at h <;> omega
  refine ⟨by omega, by omega, ?_⟩
  simp only [isBreak, Bool.or_eq_false_iff, beq_eq_false_iff_ne]
  omega

theorem not_breakz {c : Nat} (h : isBreakz c = false) : c ≠ 0 ∧ isBreak c = false := by
  simp only [isBreakz, isZ, Bool.or_eq_false_iff, beq_eq_false_iff_ne] at h
  exact ⟨h.2, h.1⟩

theorem not_blankz {c : Nat} (h : isBlankz c = false) : c ≠ 0 ∧ isBreak c = false ∧ isBlank c = false := by
  simp only [isBlankz, Bool.or_eq_false_iff] at h
  exact ⟨(not_breakz h.2).1, (not_breakz h.2).2, h.1⟩

/-! ### Between tokens -/

theorem safe_skipBom {Q : Unit → Mark → In → Prop} (h : At T e m i) (hh : Has 1 i)
    (hQ : ∀ m' i', At T e m' i' → i'.cs.length ≤ i.cs.length → Q () m' i') : safe skipBom Q m i := by
  unfold skipBom
  rw [pw_bind, pw_get]
  refine pw_ite (fun _ => ?_) (fun _ => hQ m i h (Nat.le_refl _))
  rw [pw_bind]
  refine pw_peek0 (n := 0) h hh fun c r hcs => ?_
  refine pw_ite (fun hc => ?_) (fun _ => hQ m i h (Nat.le_refl _))
  have hc : c = 0xFEFF := by simpa [isBom] using hc
  subst hc
  exact pw_skipC (n := 0) h hh hcs (by decide) (by decide) fun m' i' h1 c1 _ _ => hQ m' i' h1 (by rw [c1, hcs]; simp)

theorem safe_scanToNext {flow allowed : Bool} {f n : Nat} {Q : Bool → Mark → In → Prop} (hb : BadOk e) (h : At T e m i)
    (hn : i.cs.length < n) (hf : i.cs.length < f)
    (hQ : ∀ a m' i', At T e m' i' → i'.cs.length ≤ i.cs.length → Has 1 i' → (∀ c r, i'.cs = c :: r → isBreak c = false) →
      Q a m' i') : safe (scanToNext flow f n allowed) Q m i := by
  induction n generalizing m i allowed with
  | zero => omega
  | succ n ih =>
    unfold scanToNext
    rw [pw_bind]
    refine safe_cache hb h (by decide) fun i1 h1 c1 hh1 => ?_
    rw [pw_bind]
    refine safe_skipBom h1 hh1 fun m2 i2 h2 l2 => ?_
    rw [pw_bind]
    refine safe_cache hb h2 (by decide) fun i3 h3 c3 hh3 => ?_
    rw [pw_bind]
    have l3 : i3.cs.length ≤ i.cs.length := by rw [c3, ← c1]; exact l2
    refine safe_skipWhile hb h3 hh3 (by omega) (by simp [isSpace, isTab]) (by
      intro c hc
      have : isBlank c = true := by
        simp only [isBlank]
        simp only [Bool.or_eq_true, Bool.and_eq_true] at hc ⊢
        rcases hc with hc | hc
        · exact Or.inl hc
        · exact Or.inr hc.2
      exact (isBlank_props this).2.2) fun m4 i4 h4 l4 hh4 _ => ?_
    rw [pw_bind]
    refine safe_skipComment hb h4 hh4 (by omega) fun m5 i5 h5 l5 hh5 => ?_
    rw [pw_bind]
    refine pw_peek0 (n := 0) h5 hh5 fun c r hcs => ?_
    refine pw_ite (fun hc => ?_) (fun hc => ?_)
    · rw [pw_bind]
      refine safe_cache hb h5 (by decide) fun i6 h6 c6 hh6 => ?_
      rw [pw_bind]
      refine pw_skipLine h6 hh6 fun m7 i7 p7 => ?_
      have l7 := passed_lt p7 (by rw [c6, hcs]) hc
      rw [c6] at l7
      exact ih p7.pos (by omega) (by omega) fun a m' i' k1 k2 k3 k4 => hQ a m' i' k1 (by omega) k3 k4
    · refine hQ _ m5 i5 h5 (by omega) hh5 fun c' r' hcs' => ?_
      rw [hcs] at hcs'; cases hcs'
      simpa using hc

/-! ### Directives, anchors, tags -/

theorem safe_scanDirectiveName {f : Nat} {Q : Text → Mark → In → Prop} (hb : BadOk e) (h : At T e m i)
    (hf : i.cs.length < f)
    (hQ : ∀ s m' i', At T e m' i' → i'.cs.length ≤ i.cs.length → Q s m' i') : safe (scanDirectiveName f start) Q m i := by
  unfold scanDirectiveName
  rw [pw_bind]
  refine safe_cache hb h (by decide) fun i1 h1 c1 hh1 => ?_
  rw [pw_bind]
  refine safe_readWhile hb h1 hh1 (by rw [c1]; omega) (by decide) (fun c hc => (isAlpha_props hc).2.2)
    fun s m2 i2 h2 l2 hh2 _ => ?_
  rw [c1] at l2
  refine pw_ite (fun _ => (safe_err ‹_›)) (fun _ => ?_)
  rw [pw_bind]
  refine pw_peek0 (n := 0) h2 hh2 fun c r hcs => ?_
  exact pw_ite (fun _ => hQ _ _ _ h2 l2) (fun _ => (safe_err ‹_›))

theorem safe_scanVersionNumber {n v l : Nat} {Q : Nat → Mark → In → Prop} (hb : BadOk e) (h : At T e m i)
    (hh : Has 1 i) (hn : i.cs.length < n)
    (hQ : ∀ v m' i', At T e m' i' → i'.cs.length ≤ i.cs.length → Has 1 i' → Q v m' i') :
    safe (scanVersionNumber start n v l) Q m i := by
  induction n generalizing m i v l with
  | zero => omega
  | succ n ih =>
    unfold scanVersionNumber
    rw [pw_bind]
    refine pw_peek0 (n := 0) h hh fun c r hcs => ?_
    refine pw_ite (fun hc => ?_) (fun _ => ?_)
    · refine pw_ite (fun _ => (safe_err ‹_›)) (fun _ => ?_)
      have := isDigit_props hc
      rw [pw_bind]
      refine pw_skipC (n := 0) h hh hcs this.1 this.2.2 fun m1 i1 h1 c1 _ _ => ?_
      rw [pw_bind]
      refine safe_cache hb h1 (by decide) fun i2 h2 c2 hh2 => ?_
      have hl : i2.cs.length + 1 = i.cs.length := by rw [c2, c1, hcs]; rfl
      exact ih h2 hh2 (by omega) fun v m' i' k1 k2 k3 => hQ v m' i' k1 (by omega) k3
    · exact pw_ite (fun _ => (safe_err ‹_›)) (fun _ => hQ _ _ _ h (Nat.le_refl _) hh)

theorem safe_scanVersionValue {f : Nat} {Q : Version → Mark → In → Prop} (hb : BadOk e) (h : At T e m i)
    (hf : i.cs.length < f)
    (hQ : ∀ s m' i', At T e m' i' → i'.cs.length ≤ i.cs.length → Q s m' i') : safe (scanVersionValue f start) Q m i := by
  unfold scanVersionValue
  rw [pw_bind]
  refine safe_cache hb h (by decide) fun i1 h1 c1 hh1 => ?_
  rw [pw_bind]
  refine safe_skipWhile hb h1 hh1 (by rw [c1]; omega) (by decide) (fun c hc => (isBlank_props hc).2.2)
    fun m2 i2 h2 l2 hh2 _ => ?_
  rw [c1] at l2
  rw [pw_bind]
  refine safe_cache hb h2 (by decide) fun i3 h3 c3 hh3 => ?_
  rw [pw_bind]
  refine safe_scanVersionNumber hb h3 hh3 (by rw [c3]; omega) fun v m4 i4 h4 l4 hh4 => ?_
  rw [c3] at l4
  rw [pw_bind]
  refine pw_peek0 (n := 0) h4 hh4 fun c r hcs => ?_
  refine pw_ite (fun hc => ?_) (fun _ => (safe_err ‹_›))
  have hc : c = 46 := by simpa using hc
  subst hc
  rw [pw_bind]
  refine pw_skipC (n := 0) h4 hh4 hcs (by decide) (by decide) fun m5 i5 h5 c5 _ _ => ?_
  have l5 : i5.cs.length ≤ i4.cs.length := by rw [c5, hcs]; simp
  rw [pw_bind]
  refine safe_cache hb h5 (by decide) fun i6 h6 c6 hh6 => ?_
  rw [pw_bind]
  refine safe_scanVersionNumber hb h6 hh6 (by rw [c6]; omega) fun v m7 i7 h7 l7 hh7 => ?_
  rw [c6] at l7
  exact hQ _ _ _ h7 (by omega)

theorem safe_scanTagHandle {f : Nat} {d : Bool} {Q : Text → Mark → In → Prop} (hb : BadOk e) (h : At T e m i)
    (hf : i.cs.length < f)
    (hQ : ∀ s m' i', At T e m' i' → i'.cs.length < i.cs.length → Q s m' i') : safe (scanTagHandle f d start) Q m i := by
  unfold scanTagHandle
  rw [pw_bind]
  refine safe_cache hb h (by decide) fun i1 h1 c1 hh1 => ?_
  rw [pw_bind]
  refine pw_peek0 (n := 0) h1 hh1 fun c r hcs => ?_
  refine pw_ite (fun hc => ?_) (fun _ => (safe_err ‹_›))
  have hc : c = 33 := by simpa using hc
  subst hc
  rw [pw_bind]
  refine pw_readC (n := 0) h1 hh1 hcs (by decide) (by decide) fun m2 i2 h2 c2 _ _ => ?_
  have l2 : i2.cs.length < i.cs.length := by rw [← c1, c2, hcs]; simp
  rw [pw_bind]
  refine safe_cache hb h2 (by decide) fun i3 h3 c3 hh3 => ?_
  rw [pw_bind]
  refine safe_readWhile hb h3 hh3 (by rw [c3]; omega) (by decide) (fun c hc => (isAlpha_props hc).2.2)
    fun s m4 i4 h4 l4 hh4 _ => ?_
  rw [c3] at l4
  rw [pw_bind]
  refine pw_peek0 (n := 0) h4 hh4 fun c r hcs => ?_
  refine pw_ite (fun hc => ?_) (fun _ => ?_)
  · have hc : c = 33 := by simpa using hc
    subst hc
    exact pw_readC (n := 0) h4 hh4 hcs (by decide) (by decide) fun m5 i5 h5 c5 _ _ =>
      hQ _ _ _ h5 (by rw [hcs] at l4; rw [c5]; simp at l4; omega)
  · exact pw_ite (fun _ => (safe_err ‹_›)) (fun _ => hQ _ _ _ h4 (by omega))

/-- After a URI escape `%XX` has been found, its three characters can be skipped. -/
theorem safe_scanOctet {d : Bool} {Q : Nat → Mark → In → Prop} (hb : BadOk e) (h : At T e m i)
    (hQ : ∀ o i' a b r, At T e m i' → i'.cs = i.cs → i'.cs = 37 :: a :: b :: r → isHex a = true → isHex b = true →
      Has 3 i' → o = asHex a * 16 + asHex b → Q o m i') : safe (scanOctet d start) Q m i := by
  unfold scanOctet
  rw [pw_bind]
  refine safe_cache hb h (by decide) fun i1 h1 c1 hh1 => ?_
  rw [pw_bind]
  refine pw_peek0 (n := 2) h1 hh1 fun c r hcs => ?_
  refine pw_ite (fun hc => ?_) (fun _ => (safe_err ‹_›))
  have hc : c = 37 := by simpa using hc
  subst hc
  rw [pw_bind]
  refine pw_peek1 (n := 1) h1 hh1 hcs (by decide) fun a r1 hr => ?_
  subst hr
  refine pw_ite (fun ha => ?_) (fun _ => (safe_err ‹_›))
  have hap := isHex_props ha
  rw [pw_bind]
  refine pw_peekC (pre := [37, a]) (r := r1) h1 hh1 hcs rfl (by simp [hap.1, hap.2.1]) fun b r2 hr => ?_
  subst hr
  refine pw_ite (fun hbx => ?_) (fun _ => (safe_err ‹_›))
  exact hQ _ i1 a b r2 h1 c1 hcs ha hbx hh1 rfl

theorem safe_skip3 {β : Type} {k : Lex β} {a b : Nat} {r : List Nat} {Q : β → Mark → In → Prop} (h : At T e m i) (hh : Has 3 i)
    (hcs : i.cs = 37 :: a :: b :: r) (ha : isHex a = true) (hbx : isHex b = true)
    (hQ : ∀ m' i', At T e m' i' → i'.cs = r → safe k Q m' i') :
    safe (do skipC; skipC; skipC; k) Q m i := by
  have hap := isHex_props ha
  have hbp := isHex_props hbx
  rw [pw_bind]
  refine pw_skipC (n := 2) h hh hcs (by decide) (by decide) fun m1 i1 h1 c1 hh1 _ => ?_
  rw [pw_bind]
  refine pw_skipC (n := 1) h1 hh1 c1 hap.1 hap.2.2 fun m2 i2 h2 c2 hh2 _ => ?_
  rw [pw_bind]
  refine pw_skipC (n := 0) h2 hh2 c2 hbp.1 hbp.2.2 fun m3 i3 h3 c3 hh3 _ => ?_
  exact hQ m3 i3 h3 c3

theorem safe_scanTrailing {d : Bool} {w : Nat} {os : List Nat} {Q : List Nat → Mark → In → Prop} (hb : BadOk e)
    (h : At T e m i)
    (hQ : ∀ os m' i', At T e m' i' → i'.cs.length ≤ i.cs.length → Q os m' i') : safe (scanTrailing d start w os) Q m i := by
  induction w generalizing m i os with
  | zero => exact hQ _ _ _ h (Nat.le_refl _)
  | succ w ih =>
    unfold scanTrailing
    rw [pw_bind]
    refine safe_scanOctet hb h fun o i1 a b r h1 c0 c1 ha hbx hh1 _ => ?_
    refine pw_ite (fun _ => ?_) (fun _ => (safe_err ‹_›))
    refine safe_skip3 h1 hh1 c1 ha hbx fun m2 i2 h2 c2 => ?_
    refine ih h2 fun os m' i' k1 k2 => hQ os m' i' k1 ?_
    rw [← c0, c1]; rw [c2] at k2; simp; omega

theorem safe_scanUriEscapes {d : Bool} {Q : Nat → Mark → In → Prop} (hb : BadOk e) (h : At T e m i)
    (hQ : ∀ u m' i', At T e m' i' → i'.cs.length < i.cs.length → Q u m' i') : safe (scanUriEscapes d start) Q m i := by
  unfold scanUriEscapes
  rw [pw_bind]
  refine safe_scanOctet hb h fun o i1 a b r h1 c0 c1 ha hbx hh1 _ => ?_
  refine pw_ite (fun _ => (safe_err ‹_›)) (fun _ => ?_)
  refine safe_skip3 h1 hh1 c1 ha hbx fun m2 i2 h2 c2 => ?_
  rw [pw_bind]
  refine safe_scanTrailing hb h2 fun os m3 i3 h3 l3 => ?_
  exact hQ _ _ _ h3 (by rw [← c0, c1]; rw [c2] at l3; simp; omega)

theorem safe_scanUriLoop {u d : Bool} {n : Nat} {s : Text} {Q : Text → Mark → In → Prop} (hb : BadOk e)
    (h : At T e m i) (hh : Has 1 i) (hn : i.cs.length < n)
    (hQ : ∀ s m' i', At T e m' i' → i'.cs.length ≤ i.cs.length → Has 1 i' → Q s m' i') :
    safe (scanUriLoop u d start n s) Q m i := by
  induction n generalizing m i s with
  | zero => omega
  | succ n ih =>
    unfold scanUriLoop
    rw [pw_bind]
    refine pw_peek0 (n := 0) h hh fun c r hcs => ?_
    refine pw_ite (fun hc => ?_) (fun _ => hQ _ _ _ h (Nat.le_refl _) hh)
    refine pw_ite (fun _ => ?_) (fun _ => ?_)
    · rw [pw_bind]
      refine safe_scanUriEscapes hb h fun o m1 i1 h1 l1 => ?_
      rw [pw_bind]
      refine safe_cache hb h1 (by decide) fun i2 h2 c2 hh2 => ?_
      rw [← c2] at l1
      exact ih h2 hh2 (by omega) fun s m' i' k1 k2 k3 => hQ s m' i' k1 (by omega) k3
    · have := isUri_props hc
      rw [pw_bind]
      refine pw_readC (n := 0) h hh hcs this.1 this.2.2 fun m1 i1 h1 c1 _ _ => ?_
      rw [pw_bind]
      refine safe_cache hb h1 (by decide) fun i2 h2 c2 hh2 => ?_
      have hl : i2.cs.length + 1 = i.cs.length := by rw [c2, c1, hcs]; rfl
      exact ih h2 hh2 (by omega) fun s m' i' k1 k2 k3 => hQ s m' i' k1 (by omega) k3

theorem safe_scanTagUri {f : Nat} {u d : Bool} {head : Text} {Q : Text → Mark → In → Prop} (hb : BadOk e)
    (h : At T e m i) (hf : i.cs.length < f)
    (hQ : ∀ s m' i', At T e m' i' → i'.cs.length ≤ i.cs.length → Has 1 i' → Q s m' i') :
    safe (scanTagUri f u d head start) Q m i := by
  unfold scanTagUri
  rw [pw_bind]
  refine safe_cache hb h (by decide) fun i1 h1 c1 hh1 => ?_
  rw [pw_bind]
  refine safe_scanUriLoop hb h1 hh1 (by rw [c1]; omega) fun s m2 i2 h2 l2 hh2 => ?_
  rw [c1] at l2
  exact pw_ite (fun _ => (safe_err ‹_›)) (fun _ => hQ _ _ _ h2 l2 hh2)

theorem safe_scanTagDirValue {f : Nat} {Q : TagDir → Mark → In → Prop} (hb : BadOk e) (h : At T e m i)
    (hf : i.cs.length < f)
    (hQ : ∀ s m' i', At T e m' i' → i'.cs.length ≤ i.cs.length → Q s m' i') : safe (scanTagDirValue f start) Q m i := by
  unfold scanTagDirValue
  rw [pw_bind]
  refine safe_cache hb h (by decide) fun i1 h1 c1 hh1 => ?_
  rw [pw_bind]
  refine safe_skipWhile hb h1 hh1 (by rw [c1]; omega) (by decide) (fun c hc => (isBlank_props hc).2.2)
    fun m2 i2 h2 l2 hh2 _ => ?_
  rw [c1] at l2
  rw [pw_bind]
  refine safe_scanTagHandle hb h2 (by omega) fun hd m3 i3 h3 l3 => ?_
  rw [pw_bind]
  refine safe_cache hb h3 (by decide) fun i4 h4 c4 hh4 => ?_
  rw [pw_bind]
  refine pw_peek0 (n := 0) h4 hh4 fun c r hcs => ?_
  refine pw_ite (fun _ => ?_) (fun _ => (safe_err ‹_›))
  rw [pw_bind]
  refine safe_skipWhile hb h4 hh4 (by rw [c4]; omega) (by decide) (fun c hc => (isBlank_props hc).2.2)
    fun m5 i5 h5 l5 hh5 _ => ?_
  rw [c4] at l5
  rw [pw_bind]
  refine safe_scanTagUri hb h5 (by omega) fun px m6 i6 h6 l6 hh6 => ?_
  rw [pw_bind]
  refine safe_cache hb h6 (by decide) fun i7 h7 c7 hh7 => ?_
  rw [pw_bind]
  refine pw_peek0 (n := 0) h7 hh7 fun c r hcs => ?_
  exact pw_ite (fun _ => hQ _ _ _ h7 (by rw [c7]; omega)) (fun _ => (safe_err ‹_›))

theorem safe_finishLine {f : Nat} {ctx : String} {Q : Unit → Mark → In → Prop} (hb : BadOk e) (h : At T e m i)
    (hf : i.cs.length < f)
    (hQ : ∀ m' i', At T e m' i' → i'.cs.length ≤ i.cs.length → Q () m' i') : safe (finishLine f ctx start) Q m i := by
  unfold finishLine
  rw [pw_bind]
  refine safe_cache hb h (by decide) fun i1 h1 c1 hh1 => ?_
  rw [pw_bind]
  refine safe_skipWhile hb h1 hh1 (by rw [c1]; omega) (by decide) (fun c hc => (isBlank_props hc).2.2)
    fun m2 i2 h2 l2 hh2 _ => ?_
  rw [c1] at l2
  rw [pw_bind]
  refine safe_skipComment hb h2 hh2 (by omega) fun m3 i3 h3 l3 hh3 => ?_
  rw [pw_bind]
  refine pw_peek0 (n := 0) h3 hh3 fun c r hcs => ?_
  refine pw_ite (fun _ => ?_) (fun _ => (safe_err ‹_›))
  refine pw_ite (fun _ => ?_) (fun _ => hQ _ _ h3 (by omega))
  rw [pw_bind]
  refine safe_cache hb h3 (by decide) fun i4 h4 c4 hh4 => ?_
  refine pw_skipLine h4 hh4 fun m5 i5 p5 => hQ _ _ p5.pos ?_
  have := passed_len p5
  rw [c4] at this; omega

/-- What a token scanned from mark `m` to mark `m'` satisfies. -/
structure Scanned (T : List Nat) (m m' : Mark) (t : Token) : Prop where
  start : t.start = m
  path : OnPath T t.stop
  lo : m.index ≤ t.stop.index
  hi : t.stop.index ≤ m'.index

theorem index_le {m' : Mark} {i' : In} (h : At T e m i) (h' : At T e m' i') (hl : i'.cs.length ≤ i.cs.length) :
    m.index ≤ m'.index := by
  have := h.index; have := h'.index; omega

theorem safe_scanDirective {f : Nat} {r : List Nat} {Q : Token → Mark → In → Prop} (hb : BadOk e) (h : At T e m i)
    (hh : Has 1 i) (hcs : i.cs = 37 :: r) (hf : i.cs.length < f)
    (hQ : ∀ t m' i', At T e m' i' → i'.cs.length < i.cs.length → Scanned T m m' t →
      ((∃ v, t.data = .versionDirective v) ∨ ∃ d, t.data = .tagDirective d) → Q t m' i') : pw (scanDirective f) Q (Points T e m) m i := by
  unfold scanDirective
  rw [pw_bind, pw_get, pw_bind]
  refine pw_skipC (n := 0) h hh hcs (by decide) (by decide) fun m1 i1 h1 c1 _ _ => ?_
  have l1 : i1.cs.length < i.cs.length := by rw [c1, hcs]; simp
  rw [pw_bind]
  refine safe_scanDirectiveName hb h1 (by omega) fun name m2 i2 h2 l2 => ?_
  refine pw_ite (fun _ => ?_) (fun _ => pw_ite (fun _ => ?_) (fun _ => (safe_err ‹_›)))
  · rw [pw_bind]
    refine safe_scanVersionValue hb h2 (by omega) fun v m3 i3 h3 l3 => ?_
    rw [pw_bind, pw_get, pw_bind]
    refine safe_finishLine hb h3 (by omega) fun m4 i4 h4 l4 => ?_
    exact hQ _ _ _ h4 (by omega) ⟨rfl, h3.onPath, index_le h h3 (by omega), index_le h3 h4 l4⟩ (Or.inl ⟨_, rfl⟩)
  · rw [pw_bind]
    refine safe_scanTagDirValue hb h2 (by omega) fun v m3 i3 h3 l3 => ?_
    rw [pw_bind, pw_get, pw_bind]
    refine safe_finishLine hb h3 (by omega) fun m4 i4 h4 l4 => ?_
    exact hQ _ _ _ h4 (by omega) ⟨rfl, h3.onPath, index_le h h3 (by omega), index_le h3 h4 l4⟩ (Or.inr ⟨_, rfl⟩)

theorem safe_scanAnchor {f : Nat} {a : Bool} {c : Nat} {r : List Nat} {Q : Token → Mark → In → Prop} (hb : BadOk e)
    (h : At T e m i) (hh : Has 1 i) (hcs : i.cs = c :: r) (hc : c = 38 ∨ c = 42) (hf : i.cs.length < f)
    (hQ : ∀ t m' i', At T e m' i' → i'.cs.length < i.cs.length → Scanned T m m' t →
      (∃ s, t.data = if a then .anchor s else .alias s) → Q t m' i') : pw (scanAnchor f a) Q (Points T e m) m i := by
  unfold scanAnchor
  rw [pw_bind, pw_get, pw_bind]
  refine pw_skipC (n := 0) h hh hcs (by rcases hc with rfl | rfl <;> decide) (by rcases hc with rfl | rfl <;> decide)
    fun m1 i1 h1 c1 _ _ => ?_
  have l1 : i1.cs.length < i.cs.length := by rw [c1, hcs]; simp
  rw [pw_bind]
  refine safe_cache hb h1 (by decide) fun i2 h2 c2 hh2 => ?_
  rw [pw_bind]
  refine safe_readWhile hb h2 hh2 (by rw [c2]; omega) (by decide) (fun c hc => (isAlpha_props hc).2.2)
    fun s m3 i3 h3 l3 hh3 _ => ?_
  rw [c2] at l3
  rw [pw_bind, pw_get, pw_bind]
  refine pw_peek0 (n := 0) h3 hh3 fun c r hcs => ?_
  refine pw_ite (fun _ => ?_) (fun _ => (safe_err ‹_›))
  exact hQ _ _ _ h3 (by omega) ⟨rfl, h3.onPath, index_le h h3 (by omega), Nat.le_refl _⟩ ⟨s, rfl⟩

theorem safe_scanTagBody {f : Nat} {r : List Nat} {Q : Text × Text → Mark → In → Prop} (hb : BadOk e)
    (h : At T e m i) (hcs : i.cs = 33 :: r) (hf : i.cs.length < f)
    (hQ : ∀ p m' i', At T e m' i' → i'.cs.length < i.cs.length → Q p m' i') : safe (scanTagBody f start) Q m i := by
  unfold scanTagBody
  rw [pw_bind]
  refine safe_cache hb h (by decide) fun i1 h1 c1 hh1 => ?_
  rw [pw_bind]
  refine pw_peek1 (n := 0) h1 hh1 (by rw [c1, hcs]) (by decide) fun d r1 hr => ?_
  subst hr
  refine pw_ite (fun hd => ?_) (fun _ => ?_)
  · have hd : d = 60 := by simpa using hd
    subst hd
    rw [pw_bind]
    refine pw_skipC (n := 1) h1 hh1 (by rw [c1, hcs]) (by decide) (by decide) fun m2 i2 h2 c2 hh2 _ => ?_
    rw [pw_bind]
    refine pw_skipC (n := 0) h2 hh2 c2 (by decide) (by decide) fun m3 i3 h3 c3 hh3 _ => ?_
    have l3 : i3.cs.length + 2 = i.cs.length := by rw [c3, hcs]; rfl
    rw [pw_bind]
    refine safe_scanTagUri hb h3 (by omega) fun s m4 i4 h4 l4 hh4 => ?_
    rw [pw_bind]
    refine pw_peek0 (n := 0) h4 hh4 fun c r hcs => ?_
    refine pw_ite (fun hc => ?_) (fun _ => (safe_err ‹_›))
    have hc : c = 62 := by simpa using hc
    subst hc
    rw [pw_bind]
    refine pw_skipC (n := 0) h4 hh4 hcs (by decide) (by decide) fun m5 i5 h5 c5 _ _ => ?_
    exact hQ _ _ _ h5 (by rw [c5]; rw [hcs] at l4; simp at l4; omega)
  · rw [pw_bind]
    refine safe_scanTagHandle hb h1 (by rw [c1]; omega) fun hd m2 i2 h2 l2 => ?_
    rw [c1] at l2
    refine pw_ite (fun _ => ?_) (fun _ => ?_)
    · rw [pw_bind]
      refine safe_scanTagUri hb h2 (by omega) fun s m4 i4 h4 l4 hh4 => ?_
      exact hQ _ _ _ h4 (by omega)
    · rw [pw_bind]
      refine safe_scanTagUri hb h2 (by omega) fun s m4 i4 h4 l4 hh4 => ?_
      exact pw_ite (fun _ => hQ _ _ _ h4 (by omega)) (fun _ => hQ _ _ _ h4 (by omega))

theorem safe_scanTag {f : Nat} {flow : Bool} {r : List Nat} {Q : Token → Mark → In → Prop} (hb : BadOk e)
    (h : At T e m i) (hcs : i.cs = 33 :: r) (hf : i.cs.length < f)
    (hQ : ∀ t m' i', At T e m' i' → i'.cs.length < i.cs.length → Scanned T m m' t →
      (∃ hd s, t.data = .tag hd s) → Q t m' i') : pw (scanTag f flow) Q (Points T e m) m i := by
  unfold scanTag
  rw [pw_bind, pw_get, pw_bind]
  refine safe_scanTagBody hb h hcs hf fun p m1 i1 h1 l1 => ?_
  rw [pw_bind]
  refine safe_cache hb h1 (by decide) fun i2 h2 c2 hh2 => ?_
  rw [pw_bind]
  refine pw_peek0 (n := 0) h2 hh2 fun c r hcs => ?_
  refine pw_ite (fun _ => ?_) (fun _ => (safe_err ‹_›))
  exact hQ _ _ _ h2 (by rw [c2]; omega) ⟨rfl, h2.onPath, index_le h h2 (by rw [c2]; omega), Nat.le_refl _⟩ ⟨_, _, rfl⟩

end LibYaml
