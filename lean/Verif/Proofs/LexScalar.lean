import Verif.Proofs.LexSafe

/-! The scalar scanners stay within the requested characters, terminate, and keep exact marks. -/

namespace LibYaml

open Spec

variable {T : List Nat} {e : Option Fail} {m : Mark} {i : In} {start : Mark}

local notation "safe" m:max Q:max s:max i:max => pw m Q (Points T e start) s i

/-- `x` is a position between `lo` and the current mark. -/
structure Between (T : List Nat) (lo : Nat) (m : Mark) (x : Mark) : Prop where
  path : OnPath T x
  lo : lo ≤ x.index
  hi : x.index ≤ m.index

theorem Between.mono {lo : Nat} {m m' x : Mark} (h : Between T lo m x) (hm : m.index ≤ m'.index) : Between T lo m' x :=
  ⟨h.path, h.lo, by have := h.hi; omega⟩

/-! ### Block scalars -/

theorem safe_skipIndent {indent : Int} {n : Nat} {Q : Unit → Mark → In → Prop} (hb : BadOk e) (h : At T e m i) (hh : Has 1 i)
    (hn : i.cs.length < n)
    (hQ : ∀ m' i', At T e m' i' → i'.cs.length ≤ i.cs.length → Has 1 i' → Q () m' i') : safe (skipIndent indent n) Q m i := by
  induction n generalizing m i with
  | zero => omega
  | succ n ih =>
    unfold skipIndent
    rw [pw_bind, pw_get]
    refine pw_ite (fun _ => ?_) (fun _ => hQ _ _ h (Nat.le_refl _) hh)
    rw [pw_bind]
    refine pw_peek0 (n := 0) h hh fun c r hcs => ?_
    refine pw_ite (fun hc => ?_) (fun _ => hQ _ _ h (Nat.le_refl _) hh)
    have := isSpace_props hc
    rw [pw_bind]
    refine pw_skipC (n := 0) h hh hcs this.1 this.2.2 fun m1 i1 h1 c1 _ _ => ?_
    rw [pw_bind]
    refine safe_cache hb h1 (by decide) fun i2 h2 c2 hh2 => ?_
    have hl : i2.cs.length + 1 = i.cs.length := by rw [c2, c1, hcs]; rfl
    exact ih h2 hh2 (by omega) fun m' i' k1 k2 k3 => hQ m' i' k1 (by omega) k3

theorem safe_blockBreaksLoop {f n mx : Nat} {indent : Int} {s : Text} {stop : Mark} {lo : Nat}
    {Q : Nat × Text × Mark → Mark → In → Prop} (hb : BadOk e) (h : At T e m i) (hn : i.cs.length < n) (hf : i.cs.length < f)
    (hs : Between T lo m stop)
    (hQ : ∀ mx s stop m' i', At T e m' i' → i'.cs.length ≤ i.cs.length → Has 1 i' → Between T lo m' stop →
      (∀ c r, i'.cs = c :: r → isBreak c = false) → Q (mx, s, stop) m' i') :
    safe (blockBreaksLoop f start indent n mx s stop) Q m i := by
  induction n generalizing m i mx s stop with
  | zero => omega
  | succ n ih =>
    unfold blockBreaksLoop
    rw [pw_bind]
    refine safe_cache hb h (by decide) fun i1 h1 c1 hh1 => ?_
    rw [pw_bind]
    refine safe_skipIndent hb h1 hh1 (by rw [c1]; omega) fun m2 i2 h2 l2 hh2 => ?_
    rw [c1] at l2
    rw [pw_bind, pw_get, pw_bind]
    refine pw_peek0 (n := 0) h2 hh2 fun c r hcs => ?_
    refine pw_ite (fun _ => (safe_err ‹_›)) (fun _ => ?_)
    refine pw_ite (fun hc => ?_) (fun hc => ?_)
    · rw [pw_bind]
      refine safe_cache hb h2 (by decide) fun i3 h3 c3 hh3 => ?_
      rw [pw_bind]
      refine pw_readLine h3 hh3 fun m4 i4 p4 => ?_
      rw [pw_bind, pw_get]
      have l4 := passed_lt p4 (by rw [c3, hcs]) hc
      rw [c3] at l4
      exact ih p4.pos (by omega) (by omega) ⟨p4.pos.onPath, by
          have := hs.lo; have := hs.hi; have := index_le h p4.pos (by omega); omega, Nat.le_refl _⟩
        fun mx s stop m' i' k1 k2 k3 k4 k5 => hQ mx s stop m' i' k1 (by omega) k3 k4 k5
    · refine hQ _ _ _ m2 i2 h2 l2 hh2 (hs.mono (index_le h h2 l2)) fun c' r' hcs' => ?_
      rw [hcs] at hcs'; cases hcs'
      simpa using hc

theorem safe_blockBreaks {f : Nat} {pi indent : Int} {s : Text} {lo : Nat}
    {Q : Int × Text × Mark → Mark → In → Prop} (hb : BadOk e) (h : At T e m i) (hf : i.cs.length < f) (hlo : lo ≤ m.index)
    (hQ : ∀ ind s stop m' i', At T e m' i' → i'.cs.length ≤ i.cs.length → Has 1 i' → Between T lo m' stop →
      (∀ c r, i'.cs = c :: r → isBreak c = false) → Q (ind, s, stop) m' i') :
    safe (blockBreaks f start pi indent s) Q m i := by
  unfold blockBreaks
  rw [pw_bind, pw_get, pw_bind]
  refine safe_blockBreaksLoop hb h hf hf ⟨h.onPath, hlo, Nat.le_refl _⟩ fun mx s stop m' i' k1 k2 k3 k4 k5 => ?_
  exact hQ _ _ _ m' i' k1 k2 k3 k4 k5

theorem safe_scanIncrement {Q : Nat → Mark → In → Prop} (h : At T e m i) (hh : Has 1 i)
    (hQ : ∀ n m' i', At T e m' i' → i'.cs.length ≤ i.cs.length → Q n m' i') : safe (scanIncrement start) Q m i := by
  unfold scanIncrement
  rw [pw_bind]
  refine pw_peek0 (n := 0) h hh fun c r hcs => ?_
  refine pw_ite (fun hc => ?_) (fun _ => hQ _ _ _ h (Nat.le_refl _))
  refine pw_ite (fun _ => (safe_err ‹_›)) (fun _ => ?_)
  have := isDigit_props hc
  rw [pw_bind]
  exact pw_skipC (n := 0) h hh hcs this.1 this.2.2 fun m1 i1 h1 c1 _ _ => hQ _ _ _ h1 (by rw [c1, hcs]; simp)

theorem chompOf_props {c : Nat} {x : Chomp} (h : chompOf c = some x) : c ≠ 0 ∧ isBreak c = false := by
  unfold chompOf at h
  by_cases h1 : c = 43
  · subst h1; decide
  by_cases h2 : c = 45
  · subst h2; decide
  simp [h1, h2] at h

theorem safe_scanBlockHeader {Q : Chomp × Nat → Mark → In → Prop} (hb : BadOk e) (h : At T e m i)
    (hQ : ∀ p m' i', At T e m' i' → i'.cs.length ≤ i.cs.length → Q p m' i') : safe (scanBlockHeader start) Q m i := by
  unfold scanBlockHeader
  rw [pw_bind]
  refine safe_cache hb h (by decide) fun i1 h1 c1 hh1 => ?_
  rw [pw_bind]
  refine pw_peek0 (n := 0) h1 hh1 fun c r hcs => ?_
  cases hc : chompOf c with
  | some ch =>
    have := chompOf_props hc
    simp only
    rw [pw_bind]
    refine pw_skipC (n := 0) h1 hh1 hcs this.1 this.2 fun m2 i2 h2 c2 _ _ => ?_
    have l2 : i2.cs.length ≤ i.cs.length := by rw [← c1, c2, hcs]; simp
    rw [pw_bind]
    refine safe_cache hb h2 (by decide) fun i3 h3 c3 hh3 => ?_
    rw [pw_bind]
    exact safe_scanIncrement h3 hh3 fun n m4 i4 h4 l4 => hQ _ _ _ h4 (by rw [c3] at l4; omega)
  | none =>
    simp only
    rw [pw_bind]
    refine safe_scanIncrement h1 hh1 fun n m2 i2 h2 l2 => ?_
    rw [c1] at l2
    refine pw_ite (fun _ => hQ _ _ _ h2 l2) (fun _ => ?_)
    rw [pw_bind]
    refine safe_cache hb h2 (by decide) fun i3 h3 c3 hh3 => ?_
    rw [pw_bind]
    refine pw_peek0 (n := 0) h3 hh3 fun c r hcs => ?_
    cases hc : chompOf c with
    | some ch =>
      have := chompOf_props hc
      simp only
      rw [pw_bind]
      refine pw_skipC (n := 0) h3 hh3 hcs this.1 this.2 fun m4 i4 h4 c4 _ _ => ?_
      exact hQ _ _ _ h4 (by rw [c3] at hcs; rw [hcs] at l2; rw [c4]; simp at l2; omega)
    | none => exact hQ _ _ _ h3 (by rw [c3]; omega)

theorem safe_blockLines {f n : Nat} {pi indent : Int} {lit lb : Bool} {s l t : Text} {stop : Mark} {lo : Nat}
    {Q : Text × Text × Text × Mark → Mark → In → Prop} (hb : BadOk e) (h : At T e m i) (hh : Has 1 i) (hn : i.cs.length < n)
    (hf : i.cs.length < f) (hs : Between T lo m stop)
    (hQ : ∀ s l t stop m' i', At T e m' i' → i'.cs.length ≤ i.cs.length → Between T lo m' stop → Q (s, l, t, stop) m' i') :
    safe (blockLines f start pi lit indent n lb s l t stop) Q m i := by
  induction n generalizing m i indent lb s l t stop with
  | zero => omega
  | succ n ih =>
    unfold blockLines
    rw [pw_bind, pw_get]
    refine pw_ite (fun _ => ?_) (fun _ => hQ _ _ _ _ _ _ h (Nat.le_refl _) hs)
    rw [pw_bind]
    refine pw_peek0 (n := 0) h hh fun c r hcs => ?_
    refine pw_ite (fun _ => hQ _ _ _ _ _ _ h (Nat.le_refl _) hs) (fun hz => ?_)
    rw [pw_bind]
    refine safe_readWhile hb h hh (by omega) (by decide) (fun c hc => (not_breakz (by simpa using hc)).2)
      fun s m1 i1 h1 l1 hh1 hp1 => ?_
    rw [pw_bind]
    refine safe_cache hb h1 (by decide) fun i2 h2 c2 hh2 => ?_
    rw [pw_bind]
    refine pw_readLine h2 hh2 fun m3 i3 p3 => ?_
    have l3 : i3.cs.length < i.cs.length := by
      by_cases hbr : isBreak c = true
      · -- the line is empty: the loop above read nothing and the break is consumed
        by_cases hlt : i1.cs.length < i.cs.length
        · have := passed_len p3
          rw [c2] at this; omega
        · have : i1.cs = i.cs := by
            obtain ⟨u, a1, _⟩ := h.path
            obtain ⟨v, b1, _⟩ := h1.path
            have hl : i1.cs.length = i.cs.length := by omega
            have : v.length = u.length := by
              have e1 := congrArg List.length a1
              have e2 := congrArg List.length b1
              simp at e1 e2; omega
            rw [a1] at b1
            exact (List.append_inj_right b1 this.symm).symm
          have := passed_lt p3 (c := c) (r := r) (by rw [c2, this, hcs]) hbr
          rw [c2] at this; omega
      · have hne : i1.cs.length ≠ i.cs.length := by
          intro hl
          have : i1.cs = i.cs := by
            obtain ⟨u, a1, _⟩ := h.path
            obtain ⟨v, b1, _⟩ := h1.path
            have : v.length = u.length := by
              have e1 := congrArg List.length a1
              have e2 := congrArg List.length b1
              simp at e1 e2; omega
            rw [a1] at b1
            exact (List.append_inj_right b1 this.symm).symm
          have := hp1 c r (by rw [this, hcs])
          simp only [isBreakz, isZ] at this hz
          simp [hbr] at this
          simp [this] at hz
        have := passed_len p3
        rw [c2] at this; omega
    rw [pw_bind]
    refine safe_blockBreaks (lo := lo) hb p3.pos (by omega) (by
      have := hs.lo; have := hs.hi; have := index_le h p3.pos (by omega); omega) fun ind s stop m4 i4 h4 l4 hh4 b4 _ => ?_
    exact ih h4 hh4 (by omega) (by omega) b4 fun s l t stop m' i' k1 k2 k3 => hQ s l t stop m' i' k1 (by omega) k3

theorem safe_scanBlockScalar {f : Nat} {pi : Int} {lit : Bool} {c : Nat} {r : List Nat} {Q : Token → Mark → In → Prop}
    (hb : BadOk e) (h : At T e m i) (hh : Has 1 i) (hcs : i.cs = c :: r) (hc : c = 124 ∨ c = 62) (hf : i.cs.length < f)
    (hQ : ∀ t m' i', At T e m' i' → i'.cs.length < i.cs.length → Scanned T m m' t →
      (∃ s st, t.data = .scalar s st) → Q t m' i') : pw (scanBlockScalar f pi lit) Q (Points T e m) m i := by
  unfold scanBlockScalar
  rw [pw_bind, pw_get, pw_bind]
  refine pw_skipC (n := 0) h hh hcs (by rcases hc with rfl | rfl <;> decide) (by rcases hc with rfl | rfl <;> decide)
    fun m1 i1 h1 c1 _ _ => ?_
  have l1 : i1.cs.length < i.cs.length := by rw [c1, hcs]; simp
  rw [pw_bind]
  refine safe_scanBlockHeader hb h1 fun p m2 i2 h2 l2 => ?_
  rw [pw_bind]
  refine safe_finishLine hb h2 (by omega) fun m3 i3 h3 l3 => ?_
  rw [pw_bind]
  refine safe_blockBreaks (lo := m.index) hb h3 (by omega) (index_le h h3 (by omega)) fun ind s stop m4 i4 h4 l4 hh4 b4 _ => ?_
  simp only
  rw [pw_bind]
  refine safe_cache hb h4 (by decide) fun i5 h5 c5 hh5 => ?_
  rw [pw_bind]
  refine safe_blockLines hb h5 hh5 (by rw [c5]; omega) (by rw [c5]; omega) b4 fun s l t stop m6 i6 h6 l6 b6 => ?_
  rw [c5] at l6
  exact hQ _ _ _ h6 (by omega) ⟨rfl, b6.path, b6.lo, b6.hi⟩ ⟨_, _, rfl⟩

/-! ### Quoted scalars -/

theorem simpleEscape_props {c v : Nat} (h : simpleEscape c = some v) : c ≠ 0 ∧ isBreak c = false := by
  have : c ∈ [48, 97, 98, 116, 9, 110, 118, 102, 114, 101, 32, 34, 47, 92, 78, 95, 76, 80] := by
    apply Decidable.byContradiction
    intro hn
    simp only [List.mem_cons, List.not_mem_nil, or_false, not_or] at hn
    obtain ⟨h1, h2, h3, h4, h5, h6, h7, h8, h9, h10, h11, h12, h13, h14, h15, h16, h17, h18⟩ := hn
    simp [simpleEscape, *] at h
  simp only [List.mem_cons, List.not_mem_nil, or_false] at this
  simp only [isBreak, Bool.or_eq_false_iff, beq_eq_false_iff_ne]
  omega

theorem codeLength_props {c n : Nat} (h : codeLength c = some n) : c ≠ 0 ∧ isBreak c = false ∧ n ≤ 8 := by
  unfold codeLength at h
  by_cases h1 : c = 120
  · subst h1; simp at h; subst h; decide
  by_cases h2 : c = 117
  · subst h2; simp at h; subst h; decide
  by_cases h3 : c = 85
  · subst h3; simp at h; subst h; decide
  simp [h1, h2, h3] at h

/-- The digits of a numeric escape. -/
theorem safe_hexValue {n v : Nat} {pre rest : List Nat} {Q : Nat → Mark → In → Prop} (h : At T e m i)
    (hh : Has (pre.length + n) i) (hcs : i.cs = pre ++ rest) (hpre : ∀ c ∈ pre, isHex c = true)
    (hQ : ∀ v ds r, rest = ds ++ r → ds.length = n → (∀ c ∈ ds, isHex c = true) → Q v m i) :
    safe (hexValue start n pre.length v) Q m i := by
  induction n generalizing pre rest v with
  | zero => exact hQ v [] rest rfl rfl (by simp)
  | succ n ih =>
    unfold hexValue
    rw [pw_bind]
    refine pw_peekC h (hh.mono (by omega)) hcs rfl (fun c hc => ⟨(isHex_props (hpre c hc)).1, (isHex_props (hpre c hc)).2.1⟩)
      fun d r hr => ?_
    subst hr
    refine pw_ite (fun hd => ?_) (fun _ => (safe_err ‹_›))
    have := ih (v := v * 16 + asHex d) (pre := pre ++ [d]) (rest := r)
      (by simpa [Nat.add_comm, Nat.add_left_comm] using hh) (by simpa using hcs)
      (by intro x hx; rcases List.mem_append.mp hx with hx | hx
          · exact hpre x hx
          · simp at hx; subst hx; exact hd)
      (fun v ds r' h1 h2 h3 => hQ v (d :: ds) r' (by simp [h1]) (by simp [h2])
        (by intro x hx; rcases List.mem_cons.mp hx with rfl | hx
            · exact hd
            · exact h3 x hx))
    simpa using this

theorem pw_skipN {E : Fail → Prop} {n : Nat} {ds r : List Nat} {Q : Unit → Mark → In → Prop} (h : At T e m i)
    (hh : Has n i) (hcs : i.cs = ds ++ r) (hl : ds.length = n) (hd : ∀ c ∈ ds, c ≠ 0 ∧ isBreak c = false)
    (hQ : ∀ m' i', At T e m' i' → i'.cs = r → Q () m' i') : pw (skipN n) Q E m i := by
  induction n generalizing m i ds with
  | zero =>
    cases ds with
    | nil => exact hQ m i h hcs
    | cons _ _ => simp at hl
  | succ n ih =>
    cases ds with
    | nil => simp at hl
    | cons d ds =>
      unfold skipN
      rw [pw_bind]
      refine pw_skipC (n := n) h hh hcs (hd d (by simp)).1 (hd d (by simp)).2 fun m1 i1 h1 c1 hh1 _ => ?_
      exact ih h1 hh1 c1 (by simpa using hl) (fun c hc => hd c (by simp [hc]))

theorem safe_scanEscape {s : Text} {r : List Nat} {Q : Text → Mark → In → Prop} (hb : BadOk e)
    (h : At T e m i) (hh : Has 2 i) (hcs : i.cs = 92 :: r)
    (hQ : ∀ s m' i', At T e m' i' → i'.cs.length < i.cs.length → Q s m' i') : safe (scanEscape start s) Q m i := by
  unfold scanEscape
  rw [pw_bind]
  refine pw_peek1 (n := 0) h hh hcs (by decide) fun d r1 hr => ?_
  subst hr
  cases hd : simpleEscape d with
  | some v =>
    have hp := simpleEscape_props hd
    simp only
    rw [pw_bind]
    refine pw_skipC (n := 1) h hh hcs (by decide) (by decide) fun m1 i1 h1 c1 hh1 _ => ?_
    rw [pw_bind]
    refine pw_skipC (n := 0) h1 hh1 c1 hp.1 hp.2 fun m2 i2 h2 c2 hh2 _ => ?_
    exact hQ _ _ _ h2 (by rw [c2, hcs]; simp only [List.length_cons]; omega)
  | none =>
    simp only
    cases hl : codeLength d with
    | none => exact (safe_err ‹_›)
    | some n =>
      have hp := codeLength_props hl
      simp only
      rw [pw_bind]
      refine pw_skipC (n := 1) h hh hcs (by decide) (by decide) fun m1 i1 h1 c1 hh1 _ => ?_
      rw [pw_bind]
      refine pw_skipC (n := 0) h1 hh1 c1 hp.1 hp.2.1 fun m2 i2 h2 c2 hh2 _ => ?_
      rw [pw_bind]
      refine safe_cache hb h2 (by unfold maxLookahead; omega) fun i3 h3 c3 hh3 => ?_
      rw [pw_bind]
      refine safe_hexValue (pre := []) (rest := i3.cs) h3 (by simpa using hh3) rfl (by simp) fun v ds r2 e1 e2 e3 => ?_
      refine pw_ite (fun _ => (safe_err ‹_›)) (fun _ => ?_)
      rw [pw_bind]
      refine pw_skipN h3 hh3 e1 e2 (fun c hc => ⟨(isHex_props (e3 c hc)).1, (isHex_props (e3 c hc)).2.2⟩)
        fun m4 i4 h4 c4 => ?_
      refine hQ _ _ _ h4 ?_
      have : r1 = ds ++ r2 := by rw [← e1, c3, c2]
      rw [c4, hcs, this]; simp; omega

theorem safe_flowChars {single : Bool} {n : Nat} {s : Text} {Q : Text × Bool → Mark → In → Prop} (hb : BadOk e)
    (h : At T e m i) (hh : Has 2 i) (hn : i.cs.length < n)
    (hQ : ∀ p m' i', At T e m' i' → i'.cs.length ≤ i.cs.length →
      (i'.cs.length < i.cs.length ∨ ∃ c r, i'.cs = c :: r ∧ (isBlankz c = true ∨ c = if single then 39 else 34)) → Q p m' i') :
    safe (flowChars start single n s) Q m i := by
  induction n generalizing m i s with
  | zero => omega
  | succ n ih =>
    unfold flowChars
    rw [pw_bind]
    refine pw_peek0 (n := 1) h hh fun c r hcs => ?_
    refine pw_ite (fun hz => hQ _ _ _ h (Nat.le_refl _) (Or.inr ⟨c, r, hcs, Or.inl hz⟩)) (fun hz => ?_)
    have hz := not_blankz (by simpa using hz)
    have hread : ∀ s : Text, safe (do
        let s ← readC s
        cacheC 2
        flowChars start single n s) Q m i := by
      intro s
      rw [pw_bind]
      refine pw_readC (n := 1) h hh hcs hz.1 hz.2.1 fun m1 i1 h1 c1 _ _ => ?_
      rw [pw_bind]
      refine safe_cache hb h1 (by decide) fun i2 h2 c2 hh2 => ?_
      have hl : i2.cs.length + 1 = i.cs.length := by rw [c2, c1, hcs]; rfl
      exact ih h2 hh2 (by omega) fun p m' i' k1 k2 k3 => hQ p m' i' k1 (by omega) (Or.inl (by omega))
    refine pw_ite (fun hs => ?_) (fun hs => ?_)
    · subst hs
      refine pw_ite (fun hc => ?_) (fun _ => hread s)
      have hc : c = 39 := by simpa using hc
      subst hc
      rw [pw_bind]
      refine pw_peek1 (n := 0) h hh hcs (by decide) fun d r1 hr => ?_
      subst hr
      refine pw_ite (fun hd => ?_) (fun _ => hQ _ _ _ h (Nat.le_refl _) (Or.inr ⟨_, _, hcs, Or.inr rfl⟩))
      have hd : d = 39 := by simpa using hd
      subst hd
      rw [pw_bind]
      refine pw_skipC (n := 1) h hh hcs (by decide) (by decide) fun m1 i1 h1 c1 hh1 _ => ?_
      rw [pw_bind]
      refine pw_skipC (n := 0) h1 hh1 c1 (by decide) (by decide) fun m2 i2 h2 c2 hh2 _ => ?_
      rw [pw_bind]
      refine safe_cache hb h2 (by decide) fun i3 h3 c3 hh3 => ?_
      have hl : i3.cs.length + 2 = i.cs.length := by rw [c3, c2, hcs]; rfl
      exact ih h3 hh3 (by omega) fun p m' i' k1 k2 k3 => hQ p m' i' k1 (by omega) (Or.inl (by omega))
    · have hs : single = false := by simpa using hs
      subst hs
      refine pw_ite (fun hc => hQ _ _ _ h (Nat.le_refl _) (Or.inr ⟨_, _, hcs, Or.inr (by simpa using hc)⟩)) (fun _ => ?_)
      refine pw_ite (fun hc => ?_) (fun _ => hread s)
      have hc : c = 92 := by simpa using hc
      subst hc
      rw [pw_bind]
      refine pw_peek1 (n := 0) h hh hcs (by decide) fun d r1 hr => ?_
      subst hr
      refine pw_ite (fun hd => ?_) (fun _ => ?_)
      · rw [pw_bind]
        refine safe_cache hb h (by decide) fun i1 h1 c1 hh1 => ?_
        rw [pw_bind]
        refine pw_skipC (n := 2) h1 hh1 (by rw [c1, hcs]) (by decide) (by decide) fun m2 i2 h2 c2 hh2 _ => ?_
        rw [pw_bind]
        refine pw_skipLine h2 hh2 fun m3 i3 p3 => ?_
        have l3 := passed_lt p3 c2 hd
        have : i2.cs.length + 1 = i.cs.length := by rw [c2, hcs]; rfl
        exact hQ _ _ _ p3.pos (by omega) (Or.inl (by omega))
      · rw [pw_bind]
        refine safe_scanEscape hb h hh hcs fun s m1 i1 h1 l1 => ?_
        rw [pw_bind]
        refine safe_cache hb h1 (by decide) fun i2 h2 c2 hh2 => ?_
        rw [← c2] at l1
        exact ih h2 hh2 (by omega) fun p m' i' k1 k2 k3 => hQ p m' i' k1 (by omega) (Or.inl (by omega))

theorem safe_flowBlanks {n : Nat} {g : Gap} {Q : Gap → Mark → In → Prop} (hb : BadOk e) (h : At T e m i) (hh : Has 1 i)
    (hn : i.cs.length < n)
    (hQ : ∀ g m' i', At T e m' i' → i'.cs.length ≤ i.cs.length →
      (∀ c r, i.cs = c :: r → (isBlank c = true ∨ isBreak c = true) → i'.cs.length < i.cs.length) → Q g m' i') :
    safe (flowBlanks n g) Q m i := by
  induction n generalizing m i g with
  | zero => omega
  | succ n ih =>
    unfold flowBlanks
    rw [pw_bind]
    refine pw_peek0 (n := 0) h hh fun c r hcs => ?_
    refine pw_ite (fun hc => ?_) (fun hc => ?_)
    · have := isBlank_props hc
      refine pw_ite (fun _ => ?_) (fun _ => ?_)
      · rw [pw_bind]
        refine pw_skipC (n := 0) h hh hcs this.1 this.2.2 fun m1 i1 h1 c1 _ _ => ?_
        rw [pw_bind]
        refine safe_cache hb h1 (by decide) fun i2 h2 c2 hh2 => ?_
        have hl : i2.cs.length + 1 = i.cs.length := by rw [c2, c1, hcs]; rfl
        exact ih h2 hh2 (by omega) fun g m' i' k1 k2 _ => hQ g m' i' k1 (by omega) fun _ _ _ _ => by omega
      · rw [pw_bind]
        refine pw_readC (n := 0) h hh hcs this.1 this.2.2 fun m1 i1 h1 c1 _ _ => ?_
        rw [pw_bind]
        refine safe_cache hb h1 (by decide) fun i2 h2 c2 hh2 => ?_
        have hl : i2.cs.length + 1 = i.cs.length := by rw [c2, c1, hcs]; rfl
        exact ih h2 hh2 (by omega) fun g m' i' k1 k2 _ => hQ g m' i' k1 (by omega) fun _ _ _ _ => by omega
    refine pw_ite (fun hbr => ?_) (fun hbr => ?_)
    · rw [pw_bind]
      refine safe_cache hb h (by decide) fun i1 h1 c1 hh1 => ?_
      refine pw_ite (fun _ => ?_) (fun _ => ?_)
      all_goals
        rw [pw_bind]
        refine pw_readLine h1 hh1 fun m2 i2 p2 => ?_
        have l2 := passed_lt p2 (by rw [c1, hcs]) hbr
        rw [c1] at l2
        rw [pw_bind]
        refine safe_cache hb p2.pos (by decide) fun i3 h3 c3 hh3 => ?_
        rw [← c3] at l2
        exact ih h3 hh3 (by omega) fun g m' i' k1 k2 _ => hQ g m' i' k1 (by omega) fun _ _ _ _ => by omega
    · refine hQ _ _ _ h (Nat.le_refl _) fun c' r' hcs' hx => ?_
      rw [hcs] at hcs'; cases hcs'
      rcases hx with hx | hx
      · exact absurd hx hc
      · exact absurd hx hbr

theorem safe_flowBody {f n : Nat} {single : Bool} {s : Text} {Q : Text → Mark → In → Prop} (hb : BadOk e)
    (h : At T e m i) (hn : i.cs.length < n) (hf : i.cs.length < f)
    (hQ : ∀ s m' i' r, At T e m' i' → i'.cs.length ≤ i.cs.length → Has 1 i' → i'.cs = (if single then 39 else 34) :: r →
      Q s m' i') : safe (flowBody f start single n s) Q m i := by
  induction n generalizing m i s with
  | zero => omega
  | succ n ih =>
    unfold flowBody
    rw [pw_bind]
    refine safe_cache hb h (by decide) fun i1 h1 c1 hh1 => ?_
    rw [pw_bind]
    refine safe_docIndicator h1 hh1 fun b => ?_
    refine pw_ite (fun _ => (safe_err ‹_›)) (fun _ => ?_)
    rw [pw_bind]
    refine pw_peek0 (n := 3) h1 hh1 fun c r hcs => ?_
    refine pw_ite (fun _ => (safe_err ‹_›)) (fun hz => ?_)
    rw [pw_bind]
    refine safe_cache hb h1 (by decide) fun i2 h2 c2 hh2 => ?_
    have e2 : i2.cs = i.cs := by rw [c2, c1]
    rw [pw_bind]
    refine safe_flowChars hb h2 hh2 (by rw [e2]; omega) fun p m3 i3 h3 l3 hp3 => ?_
    rw [e2] at l3 hp3
    simp only
    rw [pw_bind]
    refine safe_cache hb h3 (by decide) fun i4 h4 c4 hh4 => ?_
    rw [pw_bind]
    refine pw_peek0 (n := 0) h4 hh4 fun d r4 hcs4 => ?_
    refine pw_ite (fun hd => ?_) (fun hd => ?_)
    · have hd : d = if single then 39 else 34 := by simpa using hd
      exact hQ _ _ _ r4 h4 (by rw [c4]; omega) hh4 (by rw [hcs4, hd])
    · rw [pw_bind]
      refine safe_flowBlanks hb h4 hh4 (by rw [c4]; omega) fun g m5 i5 h5 l5 hlt => ?_
      have hl : i5.cs.length < i.cs.length := by
        rcases hp3 with hlt3 | ⟨x, y, hx, hxx⟩
        · rw [c4] at l5; omega
        · rw [c4, hx] at hcs4
          cases hcs4
          rcases hxx with hxx | hxx
          · by_cases hl3 : i3.cs.length < i.cs.length
            · rw [c4] at l5; omega
            · -- nothing was read, so the character is the first one, which is not the end marker
              have hsame : i3.cs = i.cs := by
                obtain ⟨u, a1, _⟩ := h.path
                obtain ⟨v, b1, _⟩ := h3.path
                have : v.length = u.length := by
                  have e1 := congrArg List.length a1
                  have e2 := congrArg List.length b1
                  simp at e1 e2; omega
                rw [a1] at b1
                exact (List.append_inj_right b1 this.symm).symm
              have hcx : c = d := by
                rw [c1, ← hsame, hx] at hcs; cases hcs; rfl
              subst hcx
              have : isBlank c = true ∨ isBreak c = true := by
                simp only [isBlankz, isBreakz, Bool.or_eq_true] at hxx
                rcases hxx with hxx | hxx | hxx
                · exact Or.inl hxx
                · exact Or.inr hxx
                · exact absurd hxx (by simpa using hz)
              have := hlt _ r4 (by rw [c4, hx]) this
              rw [c4, hsame] at this
              exact this
          · exact absurd hxx (by simpa using hd)
      exact ih h5 (by omega) (by omega) fun s m' i' r k1 k2 k3 k4 => hQ s m' i' r k1 (by omega) k3 k4

theorem safe_scanFlowScalar {f : Nat} {single : Bool} {c : Nat} {r : List Nat} {Q : Token → Mark → In → Prop}
    (hb : BadOk e) (h : At T e m i) (hh : Has 1 i) (hcs : i.cs = c :: r) (hc : c = 34 ∨ c = 39) (hf : i.cs.length < f)
    (hQ : ∀ t m' i', At T e m' i' → i'.cs.length < i.cs.length → Scanned T m m' t →
      (∃ s st, t.data = .scalar s st) → Q t m' i') : pw (scanFlowScalar f single) Q (Points T e m) m i := by
  unfold scanFlowScalar
  rw [pw_bind, pw_get, pw_bind]
  refine pw_skipC (n := 0) h hh hcs (by rcases hc with rfl | rfl <;> decide) (by rcases hc with rfl | rfl <;> decide)
    fun m1 i1 h1 c1 _ _ => ?_
  have l1 : i1.cs.length < i.cs.length := by rw [c1, hcs]; simp
  rw [pw_bind]
  refine safe_flowBody hb h1 (by omega) (by omega) fun s m2 i2 r2 h2 l2 hh2 c2 => ?_
  rw [pw_bind]
  refine pw_skipC (n := 0) h2 hh2 c2 (by cases single <;> decide) (by cases single <;> decide) fun m3 i3 h3 c3 _ _ => ?_
  have l3 : i3.cs.length < i2.cs.length := by rw [c3, c2]; simp
  rw [pw_bind, pw_get]
  exact hQ _ _ _ h3 (by omega) ⟨rfl, h3.onPath, index_le h h3 (by omega), Nat.le_refl _⟩ ⟨_, _, rfl⟩

/-! ### Plain scalars -/

theorem safe_plainChars {flow : Bool} {n lo : Nat} {s : Text} {g : Gap} {stop : Mark}
    {Q : Text × Gap × Mark → Mark → In → Prop} (hb : BadOk e) (h : At T e m i) (hh : Has 2 i) (hn : i.cs.length < n)
    (hs : Between T lo m stop)
    (hQ : ∀ s g stop m' i', At T e m' i' → i'.cs.length ≤ i.cs.length → Has 1 i' → Between T lo m' stop →
      ((∃ c r, i.cs = c :: r ∧ isBlankz c = false ∧ (flow = true → isFlowIndicator c = false) ∧
        (c = 58 → flow = false ∧ ∃ d r', r = d :: r' ∧ isBlankz d = false)) → i'.cs.length < i.cs.length) →
      Q (s, g, stop) m' i') :
    safe (plainChars start flow n s g stop) Q m i := by
  induction n generalizing m i s g stop with
  | zero => omega
  | succ n ih =>
    unfold plainChars
    rw [pw_bind]
    refine pw_peek0 (n := 1) h hh fun c r hcs => ?_
    refine pw_ite (fun hz => ?_) (fun hz => ?_)
    · refine hQ _ _ _ _ _ h (Nat.le_refl _) (hh.mono (by omega)) hs ?_
      rintro ⟨c', r', e1, e2, _⟩
      rw [hcs] at e1; cases e1
      rw [hz] at e2; cases e2
    have hz := not_blankz (by simpa using hz)
    have hread : ∀ s : Text, safe (do
        let s ← readC s
        let stop ← get
        cacheC 2
        plainChars start flow n s {} stop) Q m i := by
      intro s
      rw [pw_bind]
      refine pw_readC (n := 1) h hh hcs hz.1 hz.2.1 fun m1 i1 h1 c1 _ _ => ?_
      rw [pw_bind, pw_get, pw_bind]
      refine safe_cache hb h1 (by decide) fun i2 h2 c2 hh2 => ?_
      have hl : i2.cs.length + 1 = i.cs.length := by rw [c2, c1, hcs]; rfl
      exact ih h2 hh2 (by omega) ⟨h2.onPath, by
          have := hs.lo; have := hs.hi; have := index_le h h2 (by omega); omega, Nat.le_refl _⟩
        fun s g stop m' i' k1 k2 k3 k4 _ => hQ s g stop m' i' k1 (by omega) k3 k4 fun _ => by omega
    refine pw_ite (fun hc => ?_) (fun hc => ?_)
    · have hc : c = 58 := by simpa using hc
      subst hc
      rw [pw_bind]
      refine pw_peek1 (n := 0) h hh hcs (by decide) fun d r1 hr => ?_
      subst hr
      refine pw_ite (fun _ => (safe_err ‹_›)) (fun _ => ?_)
      refine pw_ite (fun hd => ?_) (fun _ => hread _)
      refine hQ _ _ _ _ _ h (Nat.le_refl _) (hh.mono (by omega)) hs ?_
      rintro ⟨c', r', e1, _, _, e4⟩
      rw [hcs] at e1; cases e1
      obtain ⟨_, d', r'', e5, e6⟩ := e4 rfl
      cases e5
      rw [hd] at e6; cases e6
    · refine pw_ite (fun hfl => ?_) (fun _ => hread _)
      refine hQ _ _ _ _ _ h (Nat.le_refl _) (hh.mono (by omega)) hs ?_
      rintro ⟨c', r', e1, _, e3, _⟩
      rw [hcs] at e1; cases e1
      simp only [Bool.and_eq_true] at hfl
      rw [e3 hfl.1] at hfl
      cases hfl.2

theorem safe_plainBlanks {indent : Int} {n : Nat} {g : Gap} {Q : Gap → Mark → In → Prop} (hb : BadOk e)
    (h : At T e m i) (hh : Has 1 i) (hn : i.cs.length < n)
    (hQ : ∀ g m' i', At T e m' i' → i'.cs.length ≤ i.cs.length →
      (∀ c r, i.cs = c :: r → (isBlank c = true ∨ isBreak c = true) → i'.cs.length < i.cs.length) → Q g m' i') :
    safe (plainBlanks start indent n g) Q m i := by
  induction n generalizing m i g with
  | zero => omega
  | succ n ih =>
    unfold plainBlanks
    rw [pw_bind]
    refine pw_peek0 (n := 0) h hh fun c r hcs => ?_
    refine pw_ite (fun hc => ?_) (fun hc => ?_)
    · have := isBlank_props hc
      refine pw_ite (fun _ => ?_) (fun _ => ?_)
      · rw [pw_bind, pw_get]
        refine pw_ite (fun _ => (safe_err ‹_›)) (fun _ => ?_)
        rw [pw_bind]
        refine pw_skipC (n := 0) h hh hcs this.1 this.2.2 fun m1 i1 h1 c1 _ _ => ?_
        rw [pw_bind]
        refine safe_cache hb h1 (by decide) fun i2 h2 c2 hh2 => ?_
        have hl : i2.cs.length + 1 = i.cs.length := by rw [c2, c1, hcs]; rfl
        exact ih h2 hh2 (by omega) fun g m' i' k1 k2 _ => hQ g m' i' k1 (by omega) fun _ _ _ _ => by omega
      · rw [pw_bind]
        refine pw_readC (n := 0) h hh hcs this.1 this.2.2 fun m1 i1 h1 c1 _ _ => ?_
        rw [pw_bind]
        refine safe_cache hb h1 (by decide) fun i2 h2 c2 hh2 => ?_
        have hl : i2.cs.length + 1 = i.cs.length := by rw [c2, c1, hcs]; rfl
        exact ih h2 hh2 (by omega) fun g m' i' k1 k2 _ => hQ g m' i' k1 (by omega) fun _ _ _ _ => by omega
    refine pw_ite (fun hbr => ?_) (fun hbr => ?_)
    · rw [pw_bind]
      refine safe_cache hb h (by decide) fun i1 h1 c1 hh1 => ?_
      refine pw_ite (fun _ => ?_) (fun _ => ?_)
      all_goals
        rw [pw_bind]
        refine pw_readLine h1 hh1 fun m2 i2 p2 => ?_
        have l2 := passed_lt p2 (by rw [c1, hcs]) hbr
        rw [c1] at l2
        rw [pw_bind]
        refine safe_cache hb p2.pos (by decide) fun i3 h3 c3 hh3 => ?_
        rw [← c3] at l2
        exact ih h3 hh3 (by omega) fun g m' i' k1 k2 _ => hQ g m' i' k1 (by omega) fun _ _ _ _ => by omega
    · refine hQ _ _ _ h (Nat.le_refl _) fun c' r' hcs' hx => ?_
      rw [hcs] at hcs'; cases hcs'
      rcases hx with hx | hx
      · exact absurd hx hc
      · exact absurd hx hbr

/-- A place where a plain scalar may begin. -/
structure PlainStart (flow : Bool) (m : Mark) (cs : List Nat) : Prop where
  char : ∃ c r, cs = c :: r ∧ c ≠ 35 ∧ isBlankz c = false ∧ (flow = true → isFlowIndicator c = false) ∧
    (c = 58 → flow = false ∧ ∃ d r', r = d :: r' ∧ isBlankz d = false)
  doc : ∀ c, c = 45 ∨ c = 46 → ¬ ∃ d r, m.column = 0 ∧ cs = c :: c :: c :: d :: r ∧ isBlankz d = true

theorem safe_plainBody {f n lo : Nat} {flow : Bool} {indent : Int} {s : Text} {g : Gap} {stop : Mark}
    {Q : Text × Gap × Mark → Mark → In → Prop} (hb : BadOk e) (h : At T e m i) (hn : i.cs.length < n) (hf : i.cs.length < f)
    (hs : Between T lo m stop)
    (hQ : ∀ s g stop m' i', At T e m' i' → i'.cs.length ≤ i.cs.length → Between T lo m' stop →
      (PlainStart flow m i.cs → i'.cs.length < i.cs.length) → Q (s, g, stop) m' i') :
    safe (plainBody f start flow indent n s g stop) Q m i := by
  induction n generalizing m i s g stop with
  | zero => omega
  | succ n ih =>
    unfold plainBody
    rw [pw_bind]
    refine safe_cache hb h (by decide) fun i1 h1 c1 hh1 => ?_
    rw [pw_bind]
    unfold docIndicator
    rw [pw_bind]
    have hstop : ∀ b : Bool, (b = true → ∃ c, (c = 45 ∨ c = 46) ∧ ∃ d r, m.column = 0 ∧ i.cs = c :: c :: c :: d :: r ∧
        isBlankz d = true) → safe (if b = true then (pure (s, g, stop) : Lex (Text × Gap × Mark)) else do
          if (← peekC 0) == c! '#' then pure (s, g, stop)
          else
            let (s, g, stop) ← plainChars start flow f s g stop
            let c ← peekC 0
            if isBlank c || isBreak c then
              cacheC 1
              let g ← plainBlanks start indent f g
              if !flow && decide ((← get).column < indent) then pure (s, g, stop)
              else plainBody f start flow indent n s g stop
            else pure (s, g, stop)) Q m i1 := by
      intro b hdoc
      refine pw_ite (fun hbt => ?_) (fun _ => ?_)
      · obtain ⟨c, hc, hx⟩ := hdoc hbt
        refine hQ _ _ _ _ _ h1 (by rw [c1]; exact Nat.le_refl _) hs fun hp => absurd hx (hp.doc c hc)
      · rw [pw_bind]
        refine pw_peek0 (n := 3) h1 hh1 fun c r hcs => ?_
        refine pw_ite (fun hc => ?_) (fun hc => ?_)
        · refine hQ _ _ _ _ _ h1 (by rw [c1]; exact Nat.le_refl _) hs fun hp => ?_
          obtain ⟨c', r', e1, e2, _⟩ := hp.char
          rw [← c1, hcs] at e1; cases e1
          exact absurd (by simpa using hc) e2
        · rw [pw_bind]
          refine safe_plainChars hb h1 (hh1.mono (by omega)) (by rw [c1]; omega) hs fun s g stop m2 i2 h2 l2 hh2 b2 hp2 => ?_
          rw [c1] at l2 hp2
          rw [pw_bind]
          refine pw_peek0 (n := 0) h2 hh2 fun d r2 hcs2 => ?_
          refine pw_ite (fun hd => ?_) (fun hd => ?_)
          · rw [pw_bind]
            refine safe_cache hb h2 (by decide) fun i3 h3 c3 hh3 => ?_
            rw [pw_bind]
            refine safe_plainBlanks hb h3 hh3 (by rw [c3]; omega) fun g m4 i4 h4 l4 hlt => ?_
            have hl : i4.cs.length < i2.cs.length := by
              have := hlt d r2 (by rw [c3, hcs2]) (by simpa using hd)
              rw [c3] at this; exact this
            rw [c3] at l4
            rw [pw_bind, pw_get]
            have b4 := b2.mono (index_le h2 h4 l4)
            refine pw_ite (fun _ => ?_) (fun _ => ?_)
            · exact hQ _ _ _ _ _ h4 (by omega) b4 fun _ => by omega
            · exact ih h4 (by omega) (by omega) b4 fun s g stop m' i' k1 k2 k3 _ =>
                hQ s g stop m' i' k1 (by omega) k3 fun _ => by omega
          · refine hQ _ _ _ _ _ h2 l2 b2 fun hp => hp2 ?_
            obtain ⟨c', r', e1, e2, e3⟩ := hp.char
            exact ⟨c', r', e1, e3⟩
    refine pw_docMark h1 hh1 (by decide) (fun d r k1 k2 k3 => ?_) (fun _ => ?_)
    · exact hstop true fun _ => ⟨45, Or.inl rfl, d, r, k1, by rw [← c1]; exact k2, k3⟩
    · rw [if_neg (by simp)]
      refine pw_docMark h1 hh1 (by decide) (fun d r k1 k2 k3 => ?_) (fun _ => ?_)
      · exact hstop true fun _ => ⟨46, Or.inr rfl, d, r, k1, by rw [← c1]; exact k2, k3⟩
      · exact hstop false (by simp)

theorem safe_scanPlainScalar {f : Nat} {pi : Int} {flow : Bool} {Q : Token × Bool → Mark → In → Prop}
    (hb : BadOk e) (h : At T e m i) (hp : PlainStart flow m i.cs) (hf : i.cs.length < f)
    (hQ : ∀ t b m' i', At T e m' i' → i'.cs.length < i.cs.length → Scanned T m m' t →
      (∃ s st, t.data = .scalar s st) → Q (t, b) m' i') : pw (scanPlainScalar f pi flow) Q (Points T e m) m i := by
  unfold scanPlainScalar
  rw [pw_bind, pw_get, pw_bind]
  refine safe_plainBody hb h hf hf ⟨h.onPath, Nat.le_refl _, Nat.le_refl _⟩ fun s g stop m' i' k1 k2 k3 k4 => ?_
  exact hQ _ _ _ _ k1 (k4 hp) ⟨rfl, k3.path, k3.lo, k3.hi⟩ ⟨_, _, rfl⟩

end LibYaml
