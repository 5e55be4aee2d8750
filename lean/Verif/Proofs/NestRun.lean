import Verif.Proofs.NestCount
import Verif.Props.Pipeline

/-! The collections that are open between two calls of the parser. -/

namespace LibYaml

open Spec

section src
variable {σ : Type} {S : TokSrc σ} {x : σ}

/-- The tokens in front of a position. -/
theorem after_feeds {k : Nat} {y : σ} (h : S.after x k = some y) :
    ∃ D, Feeds S x D y ∧ (∀ g, netAt (S.tok x) g k = sumOver g D) ∧
      ∀ j, k = j + 1 → ∃ D' t, D = D' ++ [t] ∧ S.tok x j = some t.data := by
  induction k generalizing y with
  | zero => cases h; exact ⟨[], .nil x, fun _ => rfl, fun j hj => by omega⟩
  | succ k ih =>
    simp only [TokSrc.after] at h
    cases ha : S.after x k with
    | none => rw [ha] at h; cases h
    | some z =>
      rw [ha] at h
      simp only at h
      cases hn : S.next z with
      | error e => rw [hn] at h; cases h
      | ok r =>
        obtain ⟨t, w⟩ := r
        rw [hn] at h
        cases h
        obtain ⟨D, hf, hg, _⟩ := ih ha
        have ht : S.tok x k = some t.data := by simp only [TokSrc.tok, ha, hn]
        refine ⟨D ++ [t], .snoc hf hn, fun g => ?_, fun j hj => ⟨D, t, rfl, ?_⟩⟩
        · simp only [netAt, ht, hg, sumOver_append, sumOver_cons, sumOver_nil]
          omega
        · obtain rfl : j = k := by omega
          exact ht

end src

variable {o : Oracle} {n : Int} {f fuel : Nat} {enc : Option Enc} {bytes : List UInt8}

/-- Where the scanner starts. -/
abbrev scanFrom (enc : Option Enc) (bytes : List UInt8) : Scanner × RS := ((scanStart enc bytes).scanner, (scanStart enc bytes).input)

/-- The tokens that have opened the collections. -/
structure Low (f : Nat → Option TokData) (N : Int) (c : AC) : Prop where
  blocks : netAt f deltaB c.upto ≤ N
  all : netAt f deltaB c.upto + netAt f deltaF c.upto ≤ N + 1025

/-- A token that opens a collection is the last one that was fetched, and the depth is below the limit. -/
theorem low_checked {y : Scanner × RS} {d : TokData} {j : Nat} (hsize : bytes.length < maxFileSize) (hf : bytes.length + 3 < f)
    (ha : (scannerSrc o f).after (scanFrom enc bytes) (j + 1) = some y) (hd : (scannerSrc o f).tok (scanFrom enc bytes) j = some d)
    (hne : d ≠ .streamEnd) (hdep : ((scannerSrc o f).depth y : Int) < n) :
    (blockStart d = true → netAt ((scannerSrc o f).tok (scanFrom enc bytes)) deltaB (j + 1) ≤ n) ∧
    (netAt ((scannerSrc o f).tok (scanFrom enc bytes)) deltaB (j + 1) + netAt ((scannerSrc o f).tok (scanFrom enc bytes)) deltaF (j + 1) ≤ n + 1025 ∨
      (blockStart d = false ∧ netAt ((scannerSrc o f).tok (scanFrom enc bytes)) deltaF (j + 1) ≤ 1025)) := by
  obtain ⟨D, h1, h2, h3⟩ := after_feeds ha
  obtain ⟨D', t, rfl, h4⟩ := h3 j rfl
  rw [hd] at h4
  cases h4
  obtain ⟨good, tail, hs⟩ := exists_split (chosen enc bytes).1 (chosen enc bytes).2
  have hT := inputOf_length hs
  obtain ⟨_, h5⟩ := near_feeds (T := (inputOf enc bytes good tail).cs) (inputOf_badOk (enc := enc) (bytes := bytes) (good := good) (tail := tail)) (by omega) (near_start hsize hs) h1
  obtain ⟨h6, h7⟩ := h5 D' t rfl hne
  obtain ⟨h8, h9⟩ := near_depth h6 h7
  have hdep' : ((y.1.indents.length + y.1.flowLevel : Nat) : Int) < n := hdep
  push_cast at hdep'
  rw [h2, h2]
  refine ⟨fun h => by have := h8 h; omega, ?_⟩
  rcases h9 with h9 | h9
  · exact .inl (by omega)
  · exact .inr h9

theorem startTok_start {q : PState} {d : TokData} (h : startTok q = some d) :
    d ≠ .streamEnd ∧ (blockStart d = false → deltaB d = 0) ∧ q ≠ .indentlessSequenceEntry ∧ q ≠ .flowSequenceEntryMappingKey ∧
    deltaB d + deltaF d = 1 := by
  cases q <;> cases h <;> exact ⟨by decide, by decide, by decide, by decide, by decide⟩

theorem opened_bound {tok : Nat → Option TokData} {N b fl k : Int} {c : AC} (h : OpenIn tok b fl k c) (hl : Low tok N c) : k ≤ 2 * (N + 1025) := by
  obtain ⟨_, h2⟩ := hl
  unfold OpenIn at h
  unfold AC.upto at h2
  cases hs : startTok c.st with
  | none =>
    rw [hs] at h h2
    have h3 := stacked_weight h.chain
    rw [h.opens]
    have h4 := h.blocks
    have h5 := h.flows
    simp at h2
    omega
  | some d =>
    rw [hs] at h h2
    obtain ⟨h0, h⟩ := h
    have h3 := stacked_weight h.chain
    rw [← h.opens] at h3
    have h4 := h.blocks
    have h5 := h.flows
    have h6 := (startTok_start hs).2.2.2.2
    simp [netAt, h0] at h2
    omega

/-- A call. -/
theorem low_step {p p' : Parser (Scanner × RS)} {e : Event} {c c' : AC} {b fl k : Int} (hsize : bytes.length < maxFileSize)
    (hf : bytes.length + 3 < f) (hr' : ARel (scannerSrc o f) (scanFrom enc bytes) p'.st c')
    (ha : astep ((scannerSrc o f).tok (scanFrom enc bytes)) fuel c = some (e.data, c'))
    (hp : parse (scannerSrc o f) n fuel p = .ok (.event e, p'))
    (ho : OpenIn ((scannerSrc o f).tok (scanFrom enc bytes)) b fl k c) (hl : Low ((scannerSrc o f).tok (scanFrom enc bytes)) n.toNat c) :
    ∃ b' fl', OpenIn ((scannerSrc o f).tok (scanFrom enc bytes)) b' fl' (k + evDelta e.data) c' ∧
      Low ((scannerSrc o f).tok (scanFrom enc bytes)) n.toNat c' := by
  have hg := gives_step ho ha
  refine ⟨_, _, hg.opened, ?_⟩
  have hO := hg.opened
  unfold OpenIn at hO
  obtain ⟨l1, l2⟩ := hl
  cases hs : startTok c'.st with
  | none =>
    rw [hs] at hO
    have h1 := hO.leB
    have h2 := hO.leF
    have hu : c'.upto = c'.pos := by simp [AC.upto, hs]
    exact ⟨by rw [hu]; omega, by rw [hu]; omega⟩
  | some d =>
    rw [hs] at hO
    obtain ⟨h0, hO⟩ := hO
    have h1 := hO.leB
    have hu : c'.upto = c'.pos + 1 := by simp [AC.upto, hs]
    obtain ⟨k1, k2, k3, k4, _⟩ := startTok_start hs
    have hop := hg.start (by rw [hs]; simp)
    rcases C30_nesting_checked_partial hp hop with ⟨g1, g2⟩ | g | g
    · rcases hr'.at_ with ⟨q1, _⟩ | ⟨t, _, q2, q3⟩
      · rw [q1] at g2; cases g2
      · obtain ⟨m1, m2⟩ := low_checked hsize hf q3 h0 k1 g1
        have e1 : netAt ((scannerSrc o f).tok (scanFrom enc bytes)) deltaB (c'.pos + 1) =
          netAt ((scannerSrc o f).tok (scanFrom enc bytes)) deltaB c'.pos + deltaB d := by simp [netAt, h0]
        have hb : netAt ((scannerSrc o f).tok (scanFrom enc bytes)) deltaB (c'.pos + 1) ≤ n.toNat := by
          cases hbs : blockStart d with
          | true => have := m1 hbs; omega
          | false => have := k2 hbs; omega
        refine ⟨by rw [hu]; exact hb, ?_⟩
        rw [hu]
        rcases m2 with m2 | ⟨_, m2⟩
        · omega
        · omega
    · exact absurd (hr'.st ▸ g) k3
    · exact absurd (hr'.st ▸ g) k4

/-- All calls. -/
theorem nest_run {k : Nat} {p p' : Parser (Scanner × RS)} {os : List POut} {c : AC} {b fl z : Int} (hsize : bytes.length < maxFileSize)
    (hf : bytes.length + 3 < f) (hr : ARel (scannerSrc o f) (scanFrom enc bytes) p.st c)
    (ho : OpenIn ((scannerSrc o f).tok (scanFrom enc bytes)) b fl z c) (hl : Low ((scannerSrc o f).tok (scanFrom enc bytes)) n.toNat c)
    (h : parseN (scannerSrc o f) n fuel k p = .ok (os, p')) (w : List EvData) (hw : w <+: events os) :
    z + (w.map evDelta).sum ≤ 2 * (n.toNat + 1025) := by
  induction k generalizing p os c b fl z w with
  | zero =>
    cases h
    have : w = [] := by simpa [events] using hw
    subst this
    have := opened_bound ho hl
    simpa using this
  | succ k ih =>
    simp only [parseN] at h
    cases hp : parse (scannerSrc o f) n fuel p with
    | error e => rw [hp] at h; cases h
    | ok r =>
      obtain ⟨out, q⟩ := r
      rw [hp] at h
      simp only at h
      cases hq : parseN (scannerSrc o f) n fuel k q with
      | error e => rw [hq] at h; cases h
      | ok r =>
        obtain ⟨os', p2⟩ := r
        rw [hq] at h
        cases h
        rcases parse_cases hp with ⟨rfl, rfl, _⟩ | ⟨e, st, rfl, rfl, hs, _, hd⟩ | ⟨e, rfl, rfl, _⟩
        · exact ih hr ho hl hq w (by simpa only [events] using hw)
        · obtain ⟨c1, h1, h2⟩ := wp_ok (ref_stateMachine n fuel hr) hs
          obtain ⟨b', fl', h3, h4⟩ := low_step (p' := { p with st := st }) hsize hf h2 h1 hp ho hl
          simp only [events] at hw
          cases w with
          | nil =>
            have := opened_bound ho hl
            simpa using this
          | cons e' w =>
            obtain ⟨rfl, hw'⟩ := List.cons_prefix_cons.mp hw
            have := ih (p := { p with st := st }) h2 h3 h4 hq w hw'
            simp only [List.map_cons, List.sum_cons]
            omega
        · exact ih (p := { p with error := some e }) hr ho hl hq w (by simpa only [events] using hw)

end LibYaml
