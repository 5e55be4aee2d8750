import Verif.Proofs.LexScalar

/-! What the case analysis of `yaml_parser_fetch_next_token` says about the next characters. -/

namespace LibYaml

open Spec

variable {T : List Nat} {e : Option Fail} {m : Mark} {i : In}

/-- The input begins with a character that can be skipped. -/
def Solid (cs : List Nat) : Prop := ∃ c r, cs = c :: r ∧ c ≠ 0 ∧ isBreak c = false

/-- What the input looks like when a token of the given kind starts at `m`. -/
def KindOk (flow : Bool) (m : Mark) (cs : List Nat) : Kind → Prop
  | .streamEnd => ∃ r, cs = 0 :: r
  | .directive => ∃ r, cs = 37 :: r
  | .documentStart => ∃ d r, m.column = 0 ∧ cs = 45 :: 45 :: 45 :: d :: r ∧ isBlankz d = true
  | .documentEnd => ∃ d r, m.column = 0 ∧ cs = 46 :: 46 :: 46 :: d :: r ∧ isBlankz d = true
  | .flowStart d => Solid cs ∧ (d = .flowSequenceStart ∨ d = .flowMappingStart)
  | .flowEnd d => Solid cs ∧ (d = .flowSequenceEnd ∨ d = .flowMappingEnd)
  | .flowEntry => Solid cs
  | .blockEntry => Solid cs
  | .key => Solid cs
  | .value => Solid cs
  | .anchor _ => ∃ c r, cs = c :: r ∧ (c = 38 ∨ c = 42)
  | .tag => ∃ r, cs = 33 :: r
  | .block _ => ∃ c r, cs = c :: r ∧ (c = 124 ∨ c = 62)
  | .quoted _ => ∃ c r, cs = c :: r ∧ (c = 34 ∨ c = 39)
  | .plain => PlainStart flow m cs
  | .unknown => True

theorem pw_dispatch {E : Fail → Prop} {flow : Bool} {Q : Kind → Mark → In → Prop} (h : At T e m i) (hh : Has 4 i)
    (hbr : ∀ c r, i.cs = c :: r → isBreak c = false) (hQ : ∀ k, KindOk flow m i.cs k → Q k m i) : pw (dispatch flow) Q E m i := by
  unfold dispatch
  rw [pw_bind]
  refine pw_peek0 (n := 3) h hh fun c r hcs => ?_
  rw [pw_bind, pw_get]
  refine pw_ite (fun hz => ?_) (fun hz => ?_)
  · have hz : c = 0 := by simpa [isZ] using hz
    subst hz
    exact hQ _ ⟨r, hcs⟩
  have hz : c ≠ 0 := by simpa [isZ] using hz
  refine pw_ite (fun hc => ?_) (fun _ => ?_)
  · obtain ⟨_, rfl⟩ := hc
    exact hQ _ ⟨r, hcs⟩
  rw [pw_bind]
  refine pw_docMark h hh (by decide) (fun d r k1 k2 k3 => ?_) (fun hd1 => ?_)
  · exact hQ _ ⟨d, r, k1, k2, k3⟩
  rw [if_neg (by simp), pw_bind]
  refine pw_docMark h hh (by decide) (fun d r k1 k2 k3 => ?_) (fun hd2 => ?_)
  · exact hQ _ ⟨d, r, k1, k2, k3⟩
  rw [if_neg (by simp)]
  have hdoc : ∀ c, c = 45 ∨ c = 46 → ¬ ∃ d r, m.column = 0 ∧ i.cs = c :: c :: c :: d :: r ∧ isBlankz d = true := by
    rintro c (rfl | rfl)
    · exact hd1
    · exact hd2
  have hsolid : Solid i.cs := ⟨c, r, hcs, hz, hbr c r hcs⟩
  -- a plain scalar that starts with an indicator followed by a non-blank
  have hplain : ∀ d r', r = d :: r' → isBlankz d = false → (c = 45 ∨ ((c = 63 ∨ c = 58) ∧ flow = false)) →
      PlainStart flow m i.cs := by
    intro d r' hr hd hc
    refine ⟨⟨c, r, hcs, ?_, ?_, ?_, ?_⟩, hdoc⟩
    · omega
    · rcases hc with rfl | ⟨rfl | rfl, _⟩ <;> decide
    · intro hf
      rcases hc with rfl | ⟨_, h2⟩
      · decide
      · rw [hf] at h2; cases h2
    · intro h58
      refine ⟨?_, d, r', hr, hd⟩
      rcases hc with rfl | ⟨_, h2⟩
      · cases h58
      · exact h2
  unfold dispatchChar
  refine pw_ite (fun _ => hQ _ ⟨hsolid, Or.inl rfl⟩) (fun h1 => ?_)
  refine pw_ite (fun _ => hQ _ ⟨hsolid, Or.inr rfl⟩) (fun h2 => ?_)
  refine pw_ite (fun _ => hQ _ ⟨hsolid, Or.inl rfl⟩) (fun h3 => ?_)
  refine pw_ite (fun _ => hQ _ ⟨hsolid, Or.inr rfl⟩) (fun h4 => ?_)
  refine pw_ite (fun _ => hQ _ hsolid) (fun h5 => ?_)
  refine pw_ite (fun hc => ?_) (fun h6 => ?_)
  · subst hc
    rw [pw_bind]
    refine pw_peek1 (n := 2) h hh hcs (by decide) fun d r' hr => ?_
    by_cases hd : isBlankz d = true
    · rw [if_pos hd]; exact hQ _ hsolid
    · rw [if_neg hd]; exact hQ _ (hplain d r' hr (by simpa using hd) (Or.inl rfl))
  refine pw_ite (fun hc => ?_) (fun h7 => ?_)
  · subst hc
    refine pw_ite (fun _ => hQ _ hsolid) (fun hf => ?_)
    rw [pw_bind]
    refine pw_peek1 (n := 2) h hh hcs (by decide) fun d r' hr => ?_
    by_cases hd : isBlankz d = true
    · rw [if_pos hd]; exact hQ _ hsolid
    · rw [if_neg hd]; exact hQ _ (hplain d r' hr (by simpa using hd) (Or.inr ⟨Or.inl rfl, by simpa using hf⟩))
  refine pw_ite (fun hc => ?_) (fun h8 => ?_)
  · subst hc
    refine pw_ite (fun _ => hQ _ hsolid) (fun hf => ?_)
    rw [pw_bind]
    refine pw_peek1 (n := 2) h hh hcs (by decide) fun d r' hr => ?_
    by_cases hd : isBlankz d = true
    · rw [if_pos hd]; exact hQ _ hsolid
    · rw [if_neg hd]; exact hQ _ (hplain d r' hr (by simpa using hd) (Or.inr ⟨Or.inr rfl, by simpa using hf⟩))
  refine pw_ite (fun hc => hQ _ ⟨c, r, hcs, Or.inr hc⟩) (fun _ => ?_)
  refine pw_ite (fun hc => hQ _ ⟨c, r, hcs, Or.inl hc⟩) (fun _ => ?_)
  refine pw_ite (fun hc => hQ _ ⟨r, by rw [hcs, hc]⟩) (fun _ => ?_)
  refine pw_ite (fun hc => hQ _ ⟨c, r, hcs, Or.inl hc.1⟩) (fun _ => ?_)
  refine pw_ite (fun hc => hQ _ ⟨c, r, hcs, Or.inr hc.1⟩) (fun _ => ?_)
  refine pw_ite (fun hc => hQ _ ⟨c, r, hcs, Or.inr hc⟩) (fun _ => ?_)
  refine pw_ite (fun hc => hQ _ ⟨c, r, hcs, Or.inl hc⟩) (fun _ => ?_)
  by_cases hi : isIndicator c = true
  · rw [if_pos hi]; exact hQ _ trivial
  · rw [if_neg hi]
    have hi : isIndicator c = false := by simpa using hi
    simp only [isIndicator, Bool.or_eq_false_iff, beq_eq_false_iff_ne] at hi
    refine hQ _ ⟨⟨c, r, hcs, ?_, ?_, ?_, ?_⟩, hdoc⟩
    · omega
    · simp only [hi]
    · intro _
      simp only [isFlowIndicator, Bool.or_eq_false_iff, beq_eq_false_iff_ne]
      omega
    · intro h58; exact absurd h58 h8

end LibYaml
