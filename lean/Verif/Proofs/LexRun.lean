import Verif.Proofs.LexUnique
import Verif.Proofs.ScannerCalls

/-!
# All lexemes

The tokens that the calls of the scanner deliver are those of the layout of the lexemes of the text.
-/

namespace LibYaml

open Spec

variable {T : List Nat} {e : Option Fail} {S : Token} {D : List Token} {ls : List Lx} {m m' : Mark} {s s0 s' : Scanner} {i : In} {cs cs' u : Text}

local notation "safe" m:max Q:max s:max i:max => pw m Q (PointedErr T e) s i

/-- A run that succeeds gives what `go` gives. -/
theorem go_of_ok {α : Type} (p : Prog α) {i i' : In} {a : α} (h : p.run i = .ok (a, i')) : p.go i.cs = .ok (a, i'.cs) := by
  induction p generalizing i with
  | ret a => cases h; rfl
  | fail e => cases h
  | cache n k ih =>
    unfold Prog.run at h
    unfold Prog.go
    unfold In.cache at h
    by_cases h1 : maxLookahead < n
    · rw [if_pos h1] at h; cases h
    rw [if_neg h1] at h
    rw [if_neg h1]
    by_cases h2 : n ≤ i.avail
    · rw [if_pos h2] at h; exact ih h
    rw [if_neg h2] at h
    by_cases h3 : n ≤ i.cs.length
    · rw [if_pos h3] at h; exact ih (i := { i with avail := n }) h
    rw [if_neg h3] at h
    cases hb : i.bad with
    | some er => rw [hb] at h; cases h
    | none => rw [hb] at h; exact ih (i := { cs := i.cs, avail := i.cs.length }) h
  | look j k ih =>
    unfold Prog.run at h
    unfold Prog.go
    unfold In.look at h
    by_cases h1 : j < i.avail ∧ (i.cs.take j).all (· < 0x80) = true
    · rw [if_pos h1] at h
      rw [if_pos h1.2]
      cases hc : i.cs[j]? with
      | none => rw [hc] at h; cases h
      | some c => rw [hc] at h; exact ih c h
    · rw [if_neg h1] at h; cases h
  | skip k ih =>
    unfold Prog.run at h
    unfold Prog.go
    unfold In.skip at h
    cases hcs : i.cs with
    | nil => rw [hcs] at h; cases h
    | cons c r =>
      rw [hcs] at h
      dsimp only at h ⊢
      by_cases h1 : i.avail = 0
      · rw [if_pos h1] at h; cases h
      · rw [if_neg h1] at h
        exact ih (i := { i with cs := r, avail := i.avail - 1 }) h

theorem pw_yields {σ α : Type} {p : StateT σ Prog α} {Q : α → σ → In → Prop} {E : Fail → Prop} {s : σ} (h : pw p Q E s i) :
    pw p (fun a s' i' => Q a s' i' ∧ Yields p s i.cs a s' i'.cs) E s i := by
  unfold pw at *
  cases hr : (p s).run i with
  | error er => rw [hr] at h; exact h
  | ok r =>
    rw [hr] at h
    exact ⟨h, go_of_ok _ hr⟩

/-- The lexemes read so far. -/
def LexInv (T : List Nat) (D : List Token) (s : Scanner) (i : In) : Prop :=
  ∃ S ls u, (∃ en, S = ⟨.streamStart en, {}, {}⟩) ∧ Lexed T ls u s.flowLevel s.allowed ∧ T = u ++ i.cs ∧ Fit T S D ls s.mark [] (openBlocks [] ls) s

/-- The lexemes of the whole stream. -/
def LexEnd (T : List Nat) (D : List Token) (s : Scanner) : Prop :=
  ∃ S ls u, (∃ en, S = ⟨.streamStart en, {}, {}⟩) ∧ Lexed T ls u s.flowLevel s.allowed ∧ D ++ s.tokens = S :: layout [] ls ∧
    s.indents.length = (openBlocks [] ls).length

theorem Fit.depth {ex : List Token} {cols : List Nat} (h : Fit T S D ls m ex cols s) : s.indents.length = cols.length := by
  have := congrArg List.length h.cols
  simpa using this

theorem mem_layout {x : Lx} {cols : List Nat} (h : x ∈ ls) : x.token ∈ layout cols ls := by
  induction ls generalizing cols with
  | nil => cases h
  | cons l ls ih =>
    simp only [layout, List.mem_append]
    rcases List.mem_cons.mp h with rfl | h
    · left; right
      simp [Lx.body]
    · right
      exact ih h

/-- Required keys are not lost. -/
theorem Poised.kept {d : TokData} {a : Bool} (h : Poised T S D ls m s) (hpos : IsPos T m)
    (hfresh : ∀ k ∈ s.keys, k.possible = true → k.stale m = false)
    (hp : endsPending d a = true → ∀ pre l post, Pending ls s.flowLevel pre l post → ¬ Required pre l)
    (hlast : d = .streamEnd → ∀ pre l post, Pending ls 0 pre l post → ¬ Required pre l) : KeyKept ls s.flowLevel m d a := by
  intro pre l post hpd hreq
  refine ⟨?_, fun h0 => ?_⟩
  · obtain ⟨k, hk, hfit⟩ := h.keys.zero (by intro hn; have := h.levels; rw [hn] at this; simp at this)
    unfold KeyFit at hfit
    split at hfit
    · rename_i hp
      obtain ⟨pre', l', post', h1, h2, _, _⟩ := hfit
      obtain ⟨rfl, rfl, rfl⟩ := pending_unique h1 hpd
      have hs := stale_false (hfresh k hk hp) hp
      rw [h2] at hs
      have hpl := h.place l' (by rw [hpd.eq]; simp)
      have := pos_line_le hpl.1 hpos hpl.2
      exact ⟨by omega, hs.2⟩
    · exact absurd hreq (hfit pre l post hpd).2
  · cases he : endsPending d a with
    | false => rfl
    | true =>
      rcases h0 with h0 | h0
      · exact absurd hreq (hp he pre l post (by rw [h0]; exact hpd))
      · exact absurd hreq (hlast h0 pre l post hpd)

/-- One more lexeme. -/
theorem lexed_step {w v : Text} {a : Bool} (hT : T = u ++ (w ++ (v ++ cs'))) (hfill : Filler (s0.flowLevel != 0) s0.allowed (lastColumn u) (w ++ (v ++ cs')) a (v ++ cs'))
    (hr : Poised T S D ls (markOf (u ++ w)) s) (hpos : IsPos T (markOf (u ++ w))) (hfl : s.flowLevel = s0.flowLevel) (ha : s.allowed = a)
    (hfresh : ∀ k ∈ s.keys, k.possible = true → k.stale (markOf (u ++ w)) = false)
    (htok : (∀ t ∈ D ++ s'.tokens, IsPos T t.stop) ∨ ∃ r, v ++ cs' = 0 :: r)
    (hlast : v = [] → ∀ pre l post, Pending ls 0 pre l post → ¬ Required pre l)
    (hs : Stepped T S D ls (markOf (u ++ w)) s (v ++ cs') s' cs') :
    ∃ ls', LexStep T ls u s0.flowLevel s0.allowed ls' (u ++ (w ++ v)) s'.flowLevel s'.allowed ∧ Fit T S D ls' s'.mark [] (openBlocks [] ls') s' := by
  subst ha
  obtain ⟨d, line, kd, ls', stop, mid, h1, h2, h3, h4, h5, h6, h7, h8⟩ := hs
  refine ⟨_, ?_, h8⟩
  have hb : ∀ n : Nat, (n != 0) = decide (n ≠ 0) := by intro n; cases n <;> rfl
  rw [h6, h7]
  rw [hfl] at h1 h2 h3 h4 ⊢
  rw [hb] at h1 hfill ⊢
  have hend : (∃ r, v ++ cs' = 0 :: r) → d = .streamEnd := by
    rintro ⟨r, hz⟩
    generalize v ++ cs' = t at h1 hz
    subst hz
    cases h1 with
    | streamEnd => rfl
    | plain hp =>
      obtain ⟨c, r, h, h'⟩ := hp
      cases h
      rcases h' with ⟨h', _⟩ | ⟨h' | ⟨_, h' | h'⟩, _⟩
      · exact absurd (by simp [White, Brk]) h'
      · cases h'
      · cases h'
      · cases h'
  have hstop : ∀ x, v ++ cs' = x ++ mid → stop = stopAt d (markOf (u ++ w)) (markOf (u ++ (w ++ x))) := by
    intro x hx
    unfold StopsAt at h5
    unfold stopAt
    split at h5
    · rename_i hd
      rw [if_pos hd]
      exact h5
    · rename_i hd
      rw [if_neg hd]
      rcases htok with htok | hz
      · have hmem : Lx.token ⟨d, markOf (u ++ w), stop, s0.flowLevel, s.allowed, kd⟩ ∈ D ++ s'.tokens := by
          rw [h8.toks, List.append_nil]
          refine List.mem_cons_of_mem _ (mem_layout ?_)
          rw [hfl]
          simp
        obtain ⟨p, q, hp, hq, _⟩ := htok _ hmem
        have hq : stop = markOf p := hq
        subst hq
        have hl : p.length + mid.length = (u ++ w).length + (v ++ cs').length := h5
        have h0 : p = u ++ (w ++ x) := by
          rw [hT, hx] at hp
          have hp' : (u ++ (w ++ x)) ++ mid = p ++ q := by rw [← hp]; simp
          refine ((List.append_inj hp' ?_).1).symm
          rw [hx] at hl
          simp at hl ⊢; omega
        rw [h0]
      · exact absurd (hend hz) hd
  obtain ⟨x, hx⟩ := h1.suffix.1
  rw [hstop x hx.symm]
  refine .mk hT hfill ?_ hx.symm h2 ?_ h4
  · have hi := indent_eq hr.cols
    rw [hi] at h1
    unfold Lx.within at h1
    rw [hfl] at h1
    exact h1
  · have := hr.kept hpos hfresh (d := d) (a := s.allowed) (by rw [hfl]; exact h3) (fun hd => hlast ?_)
    · rw [hfl] at this
      exact this
    · subst hd
      clear hstop hend
      generalize ht : v ++ cs' = t at h1
      cases h1
      exact List.append_left_eq_self.mp ht

/-- If no pending key is required at the end, none is lost. -/
theorem Stepped.last {r : Text} (h : Stepped T S D ls m s (0 :: r) s' cs') (hn : NoneRequired s') :
    ∀ pre l post, Pending ls 0 pre l post → ¬ Required pre l := by
  obtain ⟨d, line, kd, ls', stop, mid, h1, h2, h3, h4, h5, h6, h7, h8⟩ := h
  intro pre l post hpd
  have hd : d = .streamEnd := by
    generalize ht : 0 :: r = t at h1
    cases h1 <;> first | rfl | (cases ht; done) | skip
    rename_i hp _ _ _
    subst ht
    exact absurd rfl (plainFirst_cons hp).1
  subst hd
  cases h2 with
  | implicit h => cases h
  | explicit h => cases h
  | other =>
  by_cases h0 : s.flowLevel = 0
  · exact h3 rfl pre l post (by rw [h0]; exact hpd)
  · obtain ⟨k, hk, hfit⟩ := h8.keys.zero (by intro hn; have := h8.levels; rw [hn] at this; simp at this)
    have hpd' := (pending_inner (x := ⟨.streamEnd, m, stop, s.flowLevel, s.allowed, false⟩) (Nat.pos_of_ne_zero h0)).mpr ⟨post, rfl, hpd⟩
    unfold KeyFit at hfit
    split at hfit
    · rename_i hp
      obtain ⟨pre', l', post', g1, _, _, g4⟩ := hfit
      obtain ⟨rfl, rfl, rfl⟩ := pending_unique g1 hpd'
      intro hr
      have := hn k hk hp
      rw [g4.mpr hr] at this
      cases this
    · exact (hfit _ _ _ hpd').2

theorem streamEnd_mark {f : Nat} (h : Poised T S D ls m s) (hm : s.mark = m) (hy : Yields (fetchKind f .streamEnd) s cs () s' cs') : s'.mark = nextLine m := by
  simp only [fetchKind, fetchStreamEnd, resetAll, y_bind, y_act, Scanner.enqueue, Scanner.allow, Except.ok.injEq] at hy
  obtain ⟨_, _, _, ⟨rfl, rfl⟩, _, _, _, ⟨_, s8, _, ⟨hu, rfl⟩, _, s9, _, ⟨hr, rfl⟩, rfl, _⟩, rfl, _⟩ := hy
  obtain ⟨_, _, t3⟩ := resetAll_ok (x := ⟨.streamEnd, m, nextLine m, s.flowLevel, s.allowed, false⟩) h hu rfl rfl
    (by rw [hm]; rfl) rfl rfl (by unfold Lx.begins; split <;> rfl)
  obtain ⟨_, e1, _⟩ := h.removeKey (x := ⟨.streamEnd, m, nextLine m, s.flowLevel, s.allowed, false⟩) (by rw [t3]) hr rfl rfl rfl
  show s9.mark = _
  rw [e1, t3, hm]
  rfl

theorem beyond_of {i' : In} (h : At T e m i) (h' : At T e m' i') (hl : i'.cs.length ≤ i.cs.length) : Beyond m m' :=
  ⟨index_le h h' hl, pos_line_le h.onPath h'.onPath (index_le h h' hl)⟩

theorem lex_fetchStep {f : Nat} {Q : Unit → Scanner → In → Prop} (hb : BadOk e) (h : Running T e D s i)
    (hT : T = u ++ i.cs) (hfit : Fit T S D ls s.mark [] (openBlocks [] ls) s) (hf : i.cs.length < f)
    (hQ : ∀ s' i' ls' u', Running T e D s' i' → (∀ x ∈ ls, x.data ≠ .streamEnd) → LexStep T ls u s.flowLevel s.allowed ls' u' s'.flowLevel s'.allowed →
      T = u' ++ i'.cs → Fit T S D ls' s'.mark [] (openBlocks [] ls') s' → i'.cs.length < i.cs.length → Q () s' i')
    (hQe : ∀ s' i', ScanEnded T D s' i' → (∀ x ∈ ls, x.data ≠ .streamEnd) → (NoneRequired s' → ∃ ls' u', LexStep T ls u s.flowLevel s.allowed ls' u' s'.flowLevel s'.allowed ∧
      Fit T S D ls' s'.mark [] (openBlocks [] ls') s') → Q () s' i') : safe (fetchNext f) Q s i := by
  have hno : ∀ x ∈ ls, x.data ≠ .streamEnd := by
    intro x hx hd
    refine running_no_end (s := s) h.base.toks x.token ?_ hd
    rw [hfit.toks, List.append_nil]
    exact List.mem_cons_of_mem _ (mem_layout hx)
  unfold fetchNext
  rw [pw_bind]
  refine pw_lexAt h.base.pos.spot (safe_cache hb h.base.pos (by decide) fun i1 h1 c1 hh1 => ?_)
  have r1 := h.advance h1 (by rw [c1]; exact Nat.le_refl _)
  rw [pw_bind, pw_get]
  rw [if_pos h.base.started]
  rw [pw_bind]
  refine pw_lexAt r1.base.pos.spot (pw_mono (pw_yields (safe_scanToNext (Q := fun _ m' i' => At T e m' i' ∧ i'.cs.length ≤ i1.cs.length ∧
    ∀ c r, i'.cs = c :: r → isBreak c = false) hb r1.base.pos (by rw [c1]; exact hf) (by rw [c1]; exact hf)
    fun a m2 i2 h2 l2 _ hbr => ⟨h2, l2, hbr⟩)) ?_ (fun _ h => h))
  rintro a m2 i2 ⟨⟨h2, l2, hbr⟩, y2⟩
  have hfill := filler_sound (by rw [c1]; exact hf) y2
  rw [c1] at l2 hfill
  have r2 := h.advance h2 l2
  rw [pw_bind]
  refine pw_act_ok rfl ?_
  have r3 := r2.allow (b := a)
  rw [pw_bind]
  refine pw_mono (pw_yields (sm_stale (Q := fun _ s' i' => s' = { s with mark := m2, allowed := a, keys := s.keys.map (LibYaml.dropStale m2) } ∧
    i' = i2) r3.base fun _ => ⟨rfl, rfl⟩)) ?_ (fun _ h => h)
  rintro _ s4 i4 ⟨⟨e4, rfl⟩, y4⟩
  have hfit2 : Fit T S D ls s.mark [] (openBlocks [] ls) { s with mark := m2, allowed := a } :=
    ⟨hfit.toks, hfit.cols, hfit.levels, hfit.parsed, hfit.keys, hfit.place, hfit.order, hfit.frees, hfit.unkeyed⟩
  obtain ⟨f4, _, fr⟩ := hfit2.stale (beyond_of h.base.pos h2 l2) (y_act.mp y4).1
  have r4 : Running T e D s4 i4 := by rw [e4]; exact r3.dropStale
  have fresh : ∀ k ∈ s4.keys, k.possible = true → m2.line ≤ k.mark.line ∧ m2.index ≤ k.mark.index + 1024 :=
    fun k hk hp => stale_false (fr k hk hp) hp
  have em : s4.mark = m2 := by rw [e4]
  have ea : s4.allowed = a := by rw [e4]
  have ef : s4.flowLevel = s.flowLevel := by rw [e4]
  rw [pw_bind]
  refine pw_mono (pw_yields (p := act fun s => s.unrollIndent s.mark.column) (Q := fun _ s' i' => Prepared T e D s' i4 ∧ i' = i4)
    (sm_unrollIndent r4 (by omega) (fun hf0 => ⟨⟨r4, by rw [em]; exact fresh, fun h0 => absurd h0 hf0⟩, rfl⟩) ?_)) ?_ (fun _ h => h)
  · intro pre ind inds hf0 p1 p2 p3 p4
    exact ⟨⟨r4.unroll p1 p4, by rw [em]; exact fresh, fun _ => p3⟩, rfl⟩
  rintro _ s5 i5 ⟨⟨hp, rfl⟩, y5⟩
  obtain ⟨f5, e5⟩ := f4.unroll (l := ⟨.key, m2, m2, s4.flowLevel, false, false⟩) (y_act.mp y5).1 rfl em.symm
  have em5 : s5.mark = m2 := by rw [e5]; exact em
  have ea5 : s5.allowed = a := by rw [e5]; exact ea
  have ef5 : s5.flowLevel = s.flowLevel := by rw [e5]; exact ef
  have ek5 : s5.keys = s4.keys := by rw [e5]
  have hready : Poised T S D ls m2 s5 := by
    unfold Poised
    rw [show s5.flowLevel = s4.flowLevel from by rw [e5]]
    exact f5
  rw [pw_bind]
  refine pw_lexAt hp.run.base.pos.spot (safe_cache hb hp.run.base.pos (by decide) fun i3 h3 c3 hh3 => ?_)
  have hp' : Prepared T e D s5 i3 := by
    refine ⟨?_, hp.fresh, hp.margin⟩
    have := hp.run.advance h3 (by rw [c3]; exact Nat.le_refl _)
    exact this
  rw [pw_bind]
  refine pw_lex (pw_mono (pw_yields (pw_dispatch (Q := fun k m' i' => KindOk (s.flowLevel != 0) s5.mark i3.cs k ∧ m' = s5.mark ∧ i' = i3) h3 hh3
    (by rw [c3]; exact hbr) fun kind hk => ⟨hk, rfl, rfl⟩)) ?_ (fun _ h => h))
  rintro kind m6 i6 ⟨⟨hk, rfl, rfl⟩, y6⟩
  have hkind := (dispatch_sound y6).2.2
  refine pw_mono (pw_yields (sm_fetchKind (Q := fun _ s' i' => (Running T e D s' i' ∧ i'.cs.length < i6.cs.length) ∨
    (kind = .streamEnd ∧ ScanEnded T D s' i' ∧ i' = i6)) hb hp' hh3 (by rw [ef5]; exact hk) (by rw [c3]; omega)
    (fun s'' i'' k1 k2 => .inl ⟨k1, k2⟩) (fun s'' k0 k1 => .inr ⟨k0, k1, rfl⟩))) ?_ (fun _ h => h)
  rintro _ s7 i7 ⟨hres, y7⟩
  obtain ⟨w0, hw, hm2, hcut⟩ := h2.path
  have hlw : u.length ≤ w0.length := by
    have := congrArg List.length (hT.symm.trans hw)
    simp at this; omega
  obtain ⟨w, rfl⟩ : ∃ w, w0 = u ++ w := by
    have := List.append_eq_append_iff.mp (hT.symm.trans hw)
    rcases this with ⟨w, h1, h2⟩ | ⟨w, h1, h2⟩
    · exact ⟨w, h1⟩
    · have : w = [] := by
        have := congrArg List.length h1
        simp at this
        exact List.eq_nil_of_length_eq_zero (by omega)
      subst this
      exact ⟨[], by simpa using h1.symm⟩
  subst hm2
  have hcs : i.cs = w ++ i5.cs := List.append_cancel_left (hT.symm.trans (hw.trans (List.append_assoc _ _ _)))
  have hcol : s.mark = markOf u := by
    obtain ⟨u', k1, k2, _⟩ := h.base.pos.path
    rw [k2, List.append_cancel_right (k1.symm.trans hT)]
  have hpos := h2.onPath
  have hfl : i6.cs.length < f := by rw [c3]; omega
  rw [em5, ← ef5] at hkind
  have hB : Beyond (markOf (u ++ w)) s7.mark := by
    rcases hres with ⟨k1, k2⟩ | ⟨rfl, _, _⟩
    · exact beyond_of (i := i6) (by rw [em5] at h3; exact h3) k1.base.pos (Nat.le_of_lt k2)
    · rw [streamEnd_mark hready em5 y7]
      unfold nextLine Beyond
      split
      · exact ⟨Nat.le_refl _, Nat.le_refl _⟩
      · exact ⟨Nat.le_refl _, Nat.le_succ _⟩
  have hI : s7.mark.index + i7.cs.length = (markOf (u ++ w)).index + i6.cs.length := by
    have hT0 := h2.index
    rcases hres with ⟨k1, k2⟩ | ⟨rfl, k1, rfl⟩
    · have := k1.base.pos.index
      rw [c3]
      omega
    · rw [streamEnd_mark hready em5 y7]
      unfold nextLine
      split <;> rfl
  have hst := kind_sound hready em5 hpos (by rw [ek5]; exact fr) hfl hkind y7 hB hI
  have hgo : ∀ v, i6.cs = v ++ i7.cs → ((∀ t ∈ D ++ s7.tokens, IsPos T t.stop) ∨ ∃ r, v ++ i7.cs = 0 :: r) →
      (v = [] → ∀ pre l post, Pending ls 0 pre l post → ¬ Required pre l) →
      ∃ ls', LexStep T ls u s.flowLevel s.allowed ls' (u ++ (w ++ v)) s7.flowLevel s7.allowed ∧ T = (u ++ (w ++ v)) ++ i7.cs ∧
        Fit T S D ls' s7.mark [] (openBlocks [] ls') s7 := by
    intro v hv hm hlast
    have hT' : T = u ++ (w ++ (v ++ i7.cs)) := by rw [hT, hcs, ← c3, hv]
    rw [hv] at hst
    obtain ⟨ls', k1, k2⟩ := lexed_step (s0 := s) hT' (by rw [← hv, c3, ← hcs]; rw [hcol] at hfill; exact hfill) hready hpos ef5 ea5
      (by rw [ek5]; exact fr) hm hlast hst
    exact ⟨ls', k1, by rw [hT']; simp, k2⟩
  rcases hres with ⟨k1, k2⟩ | ⟨rfl, k1, rfl⟩
  · obtain ⟨u7, j1, j2, _⟩ := k1.base.pos.path
    obtain ⟨v, rfl⟩ : ∃ v, u7 = (u ++ w) ++ v := by
      have hl : (u ++ w).length ≤ u7.length := by
        have := congrArg List.length (hw.symm.trans j1)
        rw [c3] at k2
        simp at this ⊢; omega
      rcases List.append_eq_append_iff.mp (hw.symm.trans j1) with ⟨v, h1, h2⟩ | ⟨v, h1, h2⟩
      · exact ⟨v, h1⟩
      · have : v = [] := by
          have := congrArg List.length h1
          rw [List.length_append (bs := v)] at this
          exact List.eq_nil_of_length_eq_zero (by omega)
        subst this
        exact ⟨[], by simpa using h1.symm⟩
    have hv : i6.cs = v ++ i7.cs := by
      rw [c3]
      exact List.append_cancel_left (hw.symm.trans (j1.trans (List.append_assoc _ _ _)))
    obtain ⟨ls', g1, g2, g3⟩ := hgo v hv (.inl fun t ht => (k1.base.toks.marks t ht).2.1)
      (by rintro rfl; rw [hv] at k2; simp at k2)
    exact hQ _ _ ls' _ k1 hno g1 g2 g3 (by rw [c3] at k2; omega)
  · refine hQe _ _ k1 hno fun hnr => ?_
    obtain ⟨r, hr⟩ := k1.rest.nul
    obtain ⟨ls', g1, g2, g3⟩ := hgo [] rfl (.inr ⟨r, hr⟩) (fun _ => by rw [hr] at hst; exact hst.last hnr)
    exact ⟨ls', _, g1, g3⟩

theorem lex_fetchNext {f : Nat} {Q : Unit → Scanner → In → Prop} (hb : BadOk e) (h : Running T e D s i) (hx : LexInv T D s i) (hf : i.cs.length < f)
    (hQ : ∀ s' i', Running T e D s' i' → LexInv T D s' i' → i'.cs.length < i.cs.length → Q () s' i')
    (hQe : ∀ s' i', ScanEnded T D s' i' → (NoneRequired s' → LexEnd T D s') → Q () s' i') : safe (fetchNext f) Q s i := by
  obtain ⟨S, ls, u, hS, hL, hT, hfit⟩ := hx
  refine lex_fetchStep hb h hT hfit hf (fun s' i' ls' u' k1 k2 k3 k4 k5 k6 => hQ s' i' k1 ⟨S, ls', u', hS, k3.lexed hL k2, k4, k5⟩ k6) ?_
  intro s' i' k1 k2 k3
  refine hQe s' i' k1 fun hn => ?_
  obtain ⟨ls', u', g1, g3⟩ := k3 hn
  exact ⟨S, ls', u', hS, g1.lexed hL k2, by rw [g3.toks, List.append_nil], g3.depth⟩

/-! ### Calls -/

theorem LexInv.stale (hx : LexInv T D s i) (hs : s.stale = .ok s') : LexInv T D s' i := by
  obtain ⟨S, ls, u, hS, hL, hT, hfit⟩ := hx
  obtain ⟨k1, k2, _⟩ := hfit.stale .refl hs
  refine ⟨S, ls, u, hS, ?_, hT, ?_⟩
  · rw [k2]; exact hL
  · rw [show s'.mark = s.mark from by rw [k2]]; exact k1

theorem lex_fetchMore {f n : Nat} {Q : Unit → Scanner → In → Prop} (hb : BadOk e) (h : Running T e D s i) (hx : LexInv T D s i) (hf : i.cs.length < f)
    (hn : i.cs.length + 1 < n)
    (hQ : ∀ s' i', Running T e D s' i' → LexInv T D s' i' → i'.cs.length ≤ i.cs.length → s'.tokens ≠ [] → s'.headPending = false → Q () s' i')
    (hQe : ∀ s' i', ScanEnded T D s' i' → LexEnd T D s' → NoneRequired s' → s'.headPending = false → Q () s' i') : safe (fetchMore f n) Q s i := by
  induction n generalizing s i with
  | zero => omega
  | succ n ih =>
    have hstep : ∀ s, Running T e D s i → LexInv T D s i → safe (do fetchNext f; fetchMore f n) Q s i := by
      intro s h hx
      rw [pw_bind]
      refine lex_fetchNext hb h hx hf (fun s' i' k1 kx k2 => ?_) (fun s' i' k1 kx => ?_)
      · exact ih k1 kx (by omega) (by omega) (fun s'' i'' j1 jx j2 j3 j4 => hQ s'' i'' j1 jx (by omega) j3 j4)
      · exact ended_stop' k1 (by omega) (fun s'' j1 j2 j3 j4 j5 => hQe s'' _ j1 (by obtain ⟨ks, rfl⟩ := j3; exact kx j4) j5 j2) fun _ => stale_error k1
    unfold fetchMore
    rw [pw_bind, pw_get]
    refine pw_ite (fun _ => hstep s h hx) (fun hne => ?_)
    rw [pw_bind]
    refine pw_mono (pw_yields (sm_stale (Q := fun _ s' i' => s' = { s with keys := s.keys.map (LibYaml.dropStale s.mark) } ∧ i' = i) h.base fun _ => ⟨rfl, rfl⟩))
      ?_ (fun _ h => h)
    rintro _ s4 i4 ⟨⟨e4, rfl⟩, y4⟩
    have hx' := hx.stale (y_act.mp y4).1
    have h' := h.dropStale
    rw [← e4] at h'
    rw [pw_bind, pw_get]
    refine pw_ite (fun _ => hstep _ h' hx') (fun hp => ?_)
    refine hQ _ _ h' hx' (Nat.le_refl _) ?_ (by simpa using hp)
    intro hnil
    rw [e4] at hnil
    exact hne (by rw [show s.tokens = [] from hnil]; rfl)

/-- What is known between calls. -/
inductive LexNext (T : List Nat) (e : Option Fail) (D : List Token) (s : Scanner) (i : In) : Prop
  | fresh (hD : D = []) (h : FreshSt T e s i)
  | running (h : Running T e D s i) (hx : LexInv T D s i)
  | ended (h : ScanEnded T D s i) (hx : LexEnd T D s) (hn : NoneRequired s)

/-- After a token was delivered. -/
inductive LexAfter (T : List Nat) (e : Option Fail) (D : List Token) (s : Scanner) (i : In) (t : Token) : Prop
  | running (h : Running T e (D ++ [t]) s i) (hx : LexInv T (D ++ [t]) s i) (ht : t.data ≠ .streamEnd)
  | ended (h : ScanEnded T (D ++ [t]) s i) (hx : LexEnd T (D ++ [t]) s) (hn : NoneRequired s) (ht : t.data ≠ .streamEnd)
  | done (ht : t.data = .streamEnd) (hx : LexEnd T (D ++ [t]) s) (he : s.tokens = [])

theorem LexInv.dequeue {t : Token} {q : List Token} (hx : LexInv T D s i) (ht : s.tokens = t :: q) :
    LexInv T (D ++ [t]) { s with tokens := q, tokensParsed := s.tokensParsed + 1 } i := by
  obtain ⟨S, ls, u, hS, hL, hT, hfit⟩ := hx
  refine ⟨S, ls, u, hS, hL, hT, ⟨?_, hfit.cols, hfit.levels, by simp [hfit.parsed], hfit.keys, hfit.place, hfit.order, hfit.frees, hfit.unkeyed⟩⟩
  rw [← hfit.toks, ht]
  simp

theorem LexEnd.dequeue {t : Token} {q : List Token} (hx : LexEnd T D s) (ht : s.tokens = t :: q) :
    LexEnd T (D ++ [t]) { s with tokens := q, tokensParsed := s.tokensParsed + 1 } := by
  obtain ⟨S, ls, u, hS, hL, hT, hd⟩ := hx
  refine ⟨S, ls, u, hS, hL, ?_, hd⟩
  rw [← hT, ht]
  simp

theorem lex_fetchFirst {Q : Unit → Scanner → In → Prop} {f : Nat} (hb : BadOk e) (h : FreshSt T e s i)
    (hQ : ∀ s' i', Running T e [] s' i' → LexInv T [] s' i' → (∃ en, s'.tokens = [⟨.streamStart en, {}, {}⟩]) → i'.cs.length ≤ i.cs.length → Q () s' i') :
    safe (fetchNext f) Q s i := by
  refine pw_mono (pw_yields (sm_fetchFirst (Q := fun _ s' i' => Running T e [] s' i' ∧ i'.cs.length ≤ i.cs.length) hb h fun s' i' k1 k2 => ⟨k1, k2⟩)) ?_
    (fun _ h => h)
  rintro _ s' i' ⟨⟨k1, k2⟩, y⟩
  suffices hg : LexInv T [] s' i' ∧ ∃ en, s'.tokens = [⟨.streamStart en, {}, {}⟩] from hQ s' i' k1 hg.1 hg.2 k2
  obtain ⟨u, hT, hu, _⟩ := h.pos.path
  have hu' : u = [] := by
    rw [h.eq] at hu
    have := congrArg Mark.index hu
    exact List.eq_nil_of_length_eq_zero this.symm
  subst hu'
  have heq := h.eq
  generalize s.enc = en at heq
  subst heq
  simp only [fetchNext, y_bind, y_lex, y_cache1, y_get] at y
  obtain ⟨_, _, _, ⟨_, ⟨rfl, rfl⟩, rfl⟩, _, _, _, ⟨rfl, rfl, rfl⟩, y⟩ := y
  rw [if_neg (by simp)] at y
  simp only [fetchStreamStart, y_act, Except.ok.injEq] at y
  obtain ⟨rfl, hcs⟩ := y
  refine ⟨⟨_, [], [], ⟨en, rfl⟩, .start, by rw [hT, hcs], ⟨rfl, rfl, rfl, rfl, ⟨?_, trivial⟩, by simp, .nil, by simp, ?_⟩⟩, en, rfl⟩
  · unfold KeyFit
    rw [if_neg (by simp)]
    intro pre l post hp
    exact absurd hp pending_nil
  · intro v pre l post hp
    exact absurd hp pending_nil

/-- One call. -/
theorem lex_nextToken {f : Nat} (hb : BadOk e) (h : LexNext T e D s i) (hf : T.length + 2 < f) :
    safe (nextToken f) (fun t s' i' => LexAfter T e D s' i' t) s i := by
  unfold nextToken
  rw [pw_bind]
  have hR : ∀ s' i', Running T e D s' i' → LexInv T D s' i' → s'.tokens ≠ [] → s'.headPending = false →
      safe (fun s => match s.tokens with
        | [] => .fail .ub
        | t :: ts => .ret (t, { s with tokens := ts, tokensParsed := s.tokensParsed + 1 }))
        (fun t s' i' => LexAfter T e D s' i' t) s' i' := by
    intro s' i' h' hx hne hh
    cases ht : s'.tokens with
    | nil => exact absurd ht hne
    | cons t q =>
      unfold pw
      simp only [ht, Prog.run]
      refine .running (dequeue_running h' ht hh) (hx.dequeue ht) ?_
      exact running_no_end (s := s') h'.base.toks t (by rw [ht]; simp)
  have hE : ∀ s' i', ScanEnded T D s' i' → LexEnd T D s' → NoneRequired s' →
      safe (fun s => match s.tokens with
        | [] => .fail .ub
        | t :: ts => .ret (t, { s with tokens := ts, tokensParsed := s.tokensParsed + 1 }))
        (fun t s' i' => LexAfter T e D s' i' t) s' i' := by
    intro s' i' h' hx hnr
    cases ht : s'.tokens with
    | nil => exact absurd ht h'.ne
    | cons t q =>
      unfold pw
      simp only [ht, Prog.run]
      have hA : D ++ [t] ++ q = D ++ s'.tokens := by rw [ht]; simp
      cases hq : q with
      | nil =>
        have hfin := h'.final
        rw [ht, hq] at hfin
        refine .done ?_ (hq ▸ hx.dequeue ht) rfl
        obtain ⟨A0, B, x, m, u, r, h1, _, _, _, _, hx, _⟩ := hfin.parts
        have := congrArg List.getLast? h1
        simp at this
        rw [this, hx]
      | cons y ys =>
        rw [← hq]
        refine .ended ⟨by simp [h'.parsed], by simp [hq], h'.stale, ?_, ⟨h'.rest.started, h'.rest.keys, h'.rest.nested, h'.rest.nul, h'.rest.has, h'.rest.closed, h'.rest.col⟩, h'.here, h'.marks⟩ (hx.dequeue ht) hnr ?_
        · show Final T (D ++ [t] ++ q); rw [hA]; exact h'.final
        · have hfin := h'.final
          rw [← hA] at hfin
          exact final_last hfin (by simp [hq]) t (by simp)
  cases h with
  | fresh hD h =>
    subst hD
    obtain ⟨n, rfl⟩ : ∃ n, f = n + 1 := ⟨f - 1, by omega⟩
    have hl := h.pos.index
    rw [show fetchMore (n + 1) (n + 1) = (do
      if (← get).tokens.isEmpty then
        fetchNext (n + 1)
        fetchMore (n + 1) n
      else
        act Scanner.stale
        if (← get).headPending then
          fetchNext (n + 1)
          fetchMore (n + 1) n
        else pure ()) from rfl]
    rw [pw_bind, pw_get, if_pos (by rw [h.eq]; rfl), pw_bind]
    refine lex_fetchFirst hb h fun s' i' k1 kx _ k2 => ?_
    exact lex_fetchMore hb k1 kx (by omega) (by omega) (fun s'' i'' j1 jx _ j3 j4 => hR s'' i'' j1 jx j3 j4)
      (fun s'' i'' j1 jx jn _ => hE s'' i'' j1 jx jn)
  | running h hx =>
    have hl := h.base.pos.index
    exact lex_fetchMore hb h hx (by omega) (by omega) (fun s'' i'' j1 jx _ j3 j4 => hR s'' i'' j1 jx j3 j4)
      (fun s'' i'' j1 jx jn _ => hE s'' i'' j1 jx jn)
  | ended h hx hn =>
    exact ended_stop' h (by omega) (fun s' j1 _ j3 _ j5 => hE s' _ j1 (by obtain ⟨ks, rfl⟩ := j3; exact hx) j5) fun _ => stale_error h

/-- The tokens `D` are the beginning of those of the text. -/
def LexPrefix (T : List Nat) (D : List Token) : Prop :=
  ∃ S ls u lv key, (∃ en, S = ⟨.streamStart en, {}, {}⟩) ∧ Lexed T ls u lv key ∧ D <+: S :: layout [] ls

/-- The tokens `D` are those of the text. -/
def LexWhole (T : List Nat) (D : List Token) : Prop :=
  ∃ S ls u lv key, (∃ en, S = ⟨.streamStart en, {}, {}⟩) ∧ Lexed T ls u lv key ∧ D = S :: layout [] ls

theorem LexNext.start (h : LexNext T e D s i) : LexPrefix T D := by
  cases h with
  | fresh hD h => exact ⟨⟨.streamStart .utf8, {}, {}⟩, [], [], 0, true, ⟨_, rfl⟩, .start, by rw [hD]; exact List.nil_prefix⟩
  | running h hx =>
    obtain ⟨S, ls, u, hS, hL, hT, hfit⟩ := hx
    exact ⟨S, ls, u, _, _, hS, hL, s.tokens, by rw [hfit.toks, List.append_nil]⟩
  | ended h hx =>
    obtain ⟨S, ls, u, hS, hL, hT, _⟩ := hx
    exact ⟨S, ls, u, _, _, hS, hL, s.tokens, hT⟩

/-- What is known after some calls. -/
inductive LexCalls (T : List Nat) (e : Option Fail) (outs : List ScanOut) (st : ScanSt RS) : Prop
  | going (D : List Token) (i : In) (hout : outs = D.map .token) (hend : st.ended = false) (herr : st.error = none)
      (next : LexNext T e D st.scanner i) (rel : Rel st.input i) (bad : i.bad = e)
  | ended (D : List Token) (j : Nat) (hout : outs = D.map .token ++ List.replicate j .nothing) (hend : st.ended = true)
      (herr : st.error = none) (whole : LexWhole T D)
  | failed (D : List Token) (j : Nat) (er : Fail) (hout : outs = D.map .token ++ .failed :: List.replicate j .nothing)
      (hend : st.ended = false) (herr : st.error = some er) (start : LexPrefix T D)

theorem lexCalls_call {o : Oracle} {f : Nat} {outs : List ScanOut} {st : ScanSt RS} (hb : BadOk e) (hf : T.length + 2 < f)
    (h : LexCalls T e outs st) :
    LexCalls T e (outs ++ [(scanCall (onReader o) f st).1]) (scanCall (onReader o) f st).2 := by
  unfold scanCall
  cases h with
  | ended D j hout hend herr whole =>
    rw [hend, Bool.true_or, if_pos rfl]
    exact .ended D (j + 1) (by rw [hout, List.append_assoc, replicate_snoc]) hend herr whole
  | failed D j er hout hend herr start =>
    rw [hend, herr]
    rw [if_pos (by rfl)]
    exact .failed D (j + 1) er (by rw [hout, List.append_assoc, List.cons_append, replicate_snoc]) hend herr start
  | going D i hout hend herr next rel bad =>
    rw [if_neg (by rw [hend, herr]; simp)]
    have hsafe := lex_nextToken hb next hf
    unfold pw at hsafe
    have hub : (nextToken f st.scanner).run i ≠ .error .ub := by
      intro hu; rw [hu] at hsafe; exact hsafe.1
    have hfail : ∀ er, LexCalls T e (outs ++ [.failed]) { st with error := some er } := fun er =>
      .failed D 0 er (by rw [hout]; rfl) hend rfl next.start
    rcases runR_refines o (nextToken f st.scanner) st.input i rel hub with
      ⟨er, h1, h2⟩ | ⟨er, h1, h2⟩ | ⟨⟨t, s'⟩, i', st', h1, h2, h3⟩
    · have h1' : onReader o (nextToken f) st.scanner st.input = .error er := h1
      rw [h1']
      exact hfail er
    · have h2' : onReader o (nextToken f) st.scanner st.input = .error er := h2
      rw [h2']
      exact hfail er
    · rw [h1] at hsafe
      have h2' : onReader o (nextToken f) st.scanner st.input = .ok ((t, s'), st') := h2
      rw [h2']
      have hbad : i'.bad = e := by rw [← bad]; exact Prog.run_bad _ _ h1
      have hne : ∀ {t : Token}, t.data ≠ .streamEnd → (t.data == .streamEnd) = false := by
        intro t ht; simpa using ht
      cases hsafe with
      | running hr hx ht =>
        exact .going (D ++ [t]) i' (by rw [hout]; simp) (hne ht) herr (.running hr hx) h3 hbad
      | ended hr hx hn ht =>
        exact .going (D ++ [t]) i' (by rw [hout]; simp) (hne ht) herr (.ended hr hx hn) h3 hbad
      | done ht hx he =>
        refine .ended (D ++ [t]) 0 (by rw [hout]; simp) (by simp [ht]) herr ?_
        obtain ⟨S, ls, u, hS, hL, hT, _⟩ := hx
        exact ⟨S, ls, u, _, _, hS, hL, by rw [← hT, he]; simp⟩

/-- All calls from the start. -/
theorem lex_calls {o : Oracle} {f : Nat} {enc : Option Enc} {bytes : List UInt8} {good : List Nat} {tail : List UInt8}
    (hsize : bytes.length < maxFileSize) (hs : Split (chosen enc bytes).1 (chosen enc bytes).2 good tail)
    (hf : bytes.length + 3 < f) (k : Nat) :
    LexCalls (inputOf enc bytes good tail).cs (inputOf enc bytes good tail).bad
      (scanRun o f (scanStart enc bytes) k).1 (scanRun o f (scanStart enc bytes) k).2 := by
  induction k with
  | zero =>
    cases scanInv_start hsize hs with
    | going D i hout hend herr next rel bad =>
      cases next with
      | fresh hD h => exact .going D i hout hend herr (.fresh hD h) rel bad
      | running h => exact absurd h.base.started (by simp [scanStart])
      | ended h => exact absurd h.rest.started (by simp [scanStart])
    | ended D j hout hend herr => cases hend
    | failed D j er i hout hend herr => cases herr
  | succ k ih => exact lexCalls_call inputOf_badOk (by have := inputOf_length hs; omega) ih

end LibYaml
