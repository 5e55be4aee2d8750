import Verif.Proofs.SrcSim
import Verif.Proofs.LoaderRun
import Verif.Proofs.ParserFuel
import Verif.Proofs.ParserPaid
import Verif.Proofs.GrammarRun

/-! The loader over corresponding sources, and over sources that end. -/

namespace LibYaml

open Spec

variable {σ τ : Type}

/-! ### Corresponding sources -/

section
variable {S : TokSrc σ} {S' : TokSrc τ} {R : σ → τ → Prop}

theorem AgreeP.error {ω : Type} {R : σ → τ → Prop} {r' : Except Fail (ω × Parser τ)} {e : Fail}
    (h : AgreeP R (.error e) r') : r' = .error e := by
  cases r' with
  | error e' => exact congrArg _ (Eq.symm h)
  | ok r => exact h.elim

theorem AgreeP.ok {ω : Type} {R : σ → τ → Prop} {r' : Except Fail (ω × Parser τ)} {o : ω} {p : Parser σ}
    (h : AgreeP R (.ok (o, p)) r') : ∃ y, R p.st.src y ∧ r' = .ok (o, p.over y) := by
  cases r' with
  | error e' => exact h.elim
  | ok r =>
    obtain ⟨o', p'⟩ := r
    obtain ⟨rfl, y, hy, rfl⟩ := h
    exact ⟨y, hy, rfl⟩

theorem AgreeP.of_ok {ω : Type} {R : σ → τ → Prop} {r : Except Fail (ω × Parser σ)} {o : ω} {p : Parser τ}
    (h : AgreeP R r (.ok (o, p))) : ∃ q y, r = .ok (o, q) ∧ R q.st.src y ∧ p = q.over y := by
  cases r with
  | error e' => exact h.elim
  | ok r =>
    obtain ⟨o', q⟩ := r
    obtain ⟨rfl, y, hy, rfl⟩ := h
    exact ⟨q, y, rfl, hy, rfl⟩

theorem AgreeP.of_error {ω : Type} {R : σ → τ → Prop} {r : Except Fail (ω × Parser σ)} {e : Fail}
    (h : AgreeP R r (.error e)) : r = .error e := by
  cases r with
  | error e' => exact congrArg _ h
  | ok r => exact h.elim

theorem loadNodes_sim (hS : Simulates S S' R) (room : Nat → Bool) (n : Int) (fuel k : Nat) (s : CState) (p : Parser σ) (y : τ)
    (hy : R p.st.src y) : AgreeP R (loadNodes room S n fuel k s p) (loadNodes room S' n fuel k s (p.over y)) := by
  induction k generalizing s p y with
  | zero => exact rfl
  | succ k ih =>
    unfold loadNodes
    have h := parse_sim hS n fuel p y hy
    cases hp : parse S n fuel p with
    | error e => rw [hp] at h; rw [h.error]; exact rfl
    | ok r =>
      obtain ⟨o, q⟩ := r
      rw [hp] at h
      obtain ⟨z, hz, h⟩ := h.ok
      rw [h]
      cases o with
      | failed => exact ⟨rfl, z, hz, rfl⟩
      | noEvent => exact rfl
      | event e =>
        simp only
        split
        · exact ⟨rfl, z, hz, rfl⟩
        · cases composeEvent room e s with
          | ok s' => exact ih s' q z hz
          | error er => cases er <;> first | exact rfl | exact ⟨rfl, z, hz, rfl⟩

theorem loadRest_sim (hS : Simulates S S' R) (room : Nat → Bool) (n : Int) (fuel k : Nat) (p : Parser σ) (y : τ)
    (hy : R p.st.src y) : AgreeP R (loadRest room S n fuel k p) (loadRest room S' n fuel k (p.over y)) := by
  unfold loadRest
  have he : (p.over y).st.ended = p.st.ended := rfl
  rw [he]
  cases p.st.ended with
  | true => exact ⟨rfl, y, hy, rfl⟩
  | false =>
    simp only [Bool.false_eq_true, if_false]
    have h := parse_sim hS n fuel p y hy
    cases hp : parse S n fuel p with
    | error e => rw [hp] at h; rw [h.error]; exact rfl
    | ok r =>
      obtain ⟨o, q⟩ := r
      rw [hp] at h
      obtain ⟨z, hz, h⟩ := h.ok
      rw [h]
      cases o with
      | failed => exact ⟨rfl, z, hz, rfl⟩
      | noEvent => exact rfl
      | event e =>
        simp only
        unfold loadDocument
        cases hd : e.data with
        | streamEnd => exact ⟨rfl, z, hz, rfl⟩
        | documentStart v ts i =>
          simp only
          have h := loadNodes_sim hS room n fuel k {} q z hz
          cases hl : loadNodes room S n fuel k {} q with
          | error e => rw [hl] at h; rw [h.error]; exact rfl
          | ok r =>
            obtain ⟨o, q'⟩ := r
            rw [hl] at h
            obtain ⟨z', hz', h⟩ := h.ok
            rw [h]
            cases o <;> exact ⟨rfl, z', hz', rfl⟩
        | _ => exact rfl

theorem load_sim (hS : Simulates S S' R) (room : Nat → Bool) (n : Int) (fuel k : Nat) (p : Parser σ) (y : τ)
    (hy : R p.st.src y) : AgreeP R (load room S n fuel k p) (load room S' n fuel k (p.over y)) := by
  unfold load
  have he : (p.over y).st.state = p.st.state := rfl
  rw [he]
  by_cases hs : p.st.state = .streamStart
  · rw [if_pos hs, if_pos hs]
    have h := parse_sim hS n fuel p y hy
    cases hp : parse S n fuel p with
    | error e => rw [hp] at h; rw [h.error]; exact rfl
    | ok r =>
      obtain ⟨o, q⟩ := r
      rw [hp] at h
      obtain ⟨z, hz, h⟩ := h.ok
      rw [h]
      cases o with
      | failed => exact ⟨rfl, z, hz, rfl⟩
      | noEvent => exact rfl
      | event e =>
        simp only
        cases e.data with
        | streamStart enc => exact loadRest_sim hS room n fuel k q z hz
        | _ => exact rfl
  · rw [if_neg hs, if_neg hs]
    exact loadRest_sim hS room n fuel k p y hy

theorem loadN_sim (hS : Simulates S S' R) (room : Nat → Bool) (n : Int) (fuel m k : Nat) (p : Parser σ) (y : τ)
    (hy : R p.st.src y) : AgreeP R (loadN room S n fuel m k p) (loadN room S' n fuel m k (p.over y)) := by
  induction k generalizing p y with
  | zero => exact ⟨rfl, y, hy, rfl⟩
  | succ k ih =>
    unfold loadN
    have h := load_sim hS room n fuel m p y hy
    cases hp : load room S n fuel m p with
    | error e => rw [hp] at h; rw [h.error]; exact rfl
    | ok r =>
      obtain ⟨o, q⟩ := r
      rw [hp] at h
      obtain ⟨z, hz, h⟩ := h.ok
      rw [h]
      simp only
      have h := ih q z hz
      cases hq : loadN room S n fuel m k q with
      | error e => rw [hq] at h; rw [h.error]; exact rfl
      | ok r =>
        obtain ⟨os, q'⟩ := r
        rw [hq] at h
        obtain ⟨z', hz', h⟩ := h.ok
        rw [h]
        exact ⟨rfl, z', hz', rfl⟩

theorem evs_sim (hS : Simulates S S' R) {n : Int} {fuel : Nat} {p q : Parser σ} {w : List Event} {y : τ} (hy : R p.st.src y)
    (h : Evs S n fuel p w q) : ∃ z, R q.st.src z ∧ Evs S' n fuel (p.over y) w (q.over z) := by
  induction h generalizing y with
  | nil => exact ⟨y, hy, .nil⟩
  | @cons p e q w r h1 _ ih =>
    have h2 := parse_sim hS n fuel p y hy
    rw [h1] at h2
    obtain ⟨z, hz, h2⟩ := h2.ok
    obtain ⟨z', hz', h3⟩ := ih hz
    exact ⟨z', hz', .cons h2 h3⟩

theorem feeds_sim (hS : Simulates S S' R) {x x' : σ} {y : τ} {toks : List Token} (hy : R x y) (h : Feeds S x toks x') :
    ∃ y', R x' y' ∧ Feeds S' y toks y' := by
  induction h with
  | nil => exact ⟨y, hy, .nil y⟩
  | @snoc ts x1 t x2 _ hn ih =>
    obtain ⟨y1, h1, h2⟩ := ih
    have h3 := (hS x1 y1 h1).2
    rw [hn] at h3
    cases hn' : S'.next y1 with
    | error e => rw [hn'] at h3; exact h3.elim
    | ok r =>
      obtain ⟨t', y2⟩ := r
      rw [hn'] at h3
      obtain ⟨rfl, h4⟩ := h3
      exact ⟨y2, h4, .snoc h2 hn'⟩

theorem feeds_sim_back (hS : Simulates S S' R) {x : σ} {y y' : τ} {toks : List Token} (hy : R x y) (h : Feeds S' y toks y') :
    ∃ x', R x' y' ∧ Feeds S x toks x' := by
  induction h with
  | nil => exact ⟨x, hy, .nil x⟩
  | @snoc ts y1 t y2 _ hn ih =>
    obtain ⟨x1, h1, h2⟩ := ih
    have h3 := (hS x1 y1 h1).2
    rw [hn] at h3
    cases hn' : S.next x1 with
    | error e => rw [hn'] at h3; exact h3.elim
    | ok r =>
      obtain ⟨t', x2⟩ := r
      rw [hn'] at h3
      obtain ⟨rfl, h4⟩ := h3
      exact ⟨x2, h4, .snoc h2 hn'⟩

end

/-! ### Sources that end -/

section
variable {S : TokSrc σ} {left : σ → Nat} {x : σ} {n : Int} {fuel : Nat}

theorem left_after (hB : Bounded S left) {k : Nat} {y : σ} (h : S.after x k = some y)
    (hc : ∀ j, j < k → S.tok x j ≠ some .streamEnd) : left y + k ≤ left x := by
  induction k generalizing y with
  | zero => cases h; omega
  | succ k ih =>
    simp only [TokSrc.after] at h
    cases ha : S.after x k with
    | none => rw [ha] at h; cases h
    | some z =>
      rw [ha] at h
      simp only at h
      cases hn : S.next z with
      | error e => rw [hn] at h; cases h
      | ok r =>
        obtain ⟨t, w⟩ := r
        rw [hn] at h
        cases h
        have h1 := ih ha fun j hj => hc j (by omega)
        have h2 : t.data ≠ .streamEnd := by
          intro ht
          exact hc k (by omega) (by simp only [TokSrc.tok, ha, hn, ht])
        have := hB.lt _ _ _ hn h2
        omega

/-- There are at most four times as many events as tokens. -/
theorem events_bounded (hB : Bounded S left) {k : Nat} {os : List POut} {p : Parser σ}
    (h : parseN S n fuel k (Parser.init x) = .ok (os, p)) : (events os).length ≤ 4 * (left x + 1) := by
  obtain ⟨c, hr, hrel⟩ := runs_of_parse (init_rel x) h
  have hinv : PaidInv (S.tok x) ⟨.streamStart, [], 0, []⟩ :=
    ⟨⟨fun j hj => (by cases hj), fun q hq => (by cases hq)⟩, (by intro hf; cases hf)⟩
  obtain ⟨h1, h2⟩ := pays_runs (A := 0) hinv hr (by simp [PState.cost, stackCost])
  have hafter : ∀ j, j < c.pos + 1 → ∃ y, S.after x j = some y := by
    have hpre : ∀ (d j : Nat) (y : σ), S.after x (j + d) = some y → ∃ z, S.after x j = some z := by
      intro d
      induction d with
      | zero => intro j y h; exact ⟨y, h⟩
      | succ d ih =>
        intro j y h
        obtain ⟨z, hz⟩ := ih (j + 1) y (by rw [← h]; congr 1; omega)
        simp only [TokSrc.after] at hz
        cases ha : S.after x j with
        | none => rw [ha] at hz; cases hz
        | some w => exact ⟨w, rfl⟩
    intro j hj
    rcases hrel.at_ with ⟨_, h3⟩ | ⟨t, _, _, h3⟩
    · exact hpre (c.pos - j) j _ (by rw [← h3]; congr 1; omega)
    · exact hpre (c.pos + 1 - j) j _ (by rw [← h3]; congr 1; omega)
  have hpos : c.pos ≤ left x + 1 := by
    rcases h2 with ⟨_, h2⟩ | ⟨_, k, h3, h4⟩
    · obtain ⟨y, hy⟩ := hafter c.pos (by omega)
      have := left_after hB hy h2.clean
      omega
    · obtain ⟨y, hy⟩ := hafter k (by omega)
      have := left_after hB hy h4.clean
      omega
  omega

/-- Without a failure and without STREAM-END, every call delivers an event. -/
theorem all_events (hS : S.Safe) {k : Nat} {c : Cfg} {p p' : Parser σ} {os : List POut} (hp : Ready p c) (hc : c ≠ .ended)
    (h : parseN S n fuel k p = .ok (os, p')) (hf : .failed ∉ os) (he : .streamEnd ∉ events os) : (events os).length = k := by
  induction k generalizing p os c with
  | zero => cases h; rfl
  | succ k ih =>
    simp only [parseN] at h
    rcases parse_step hS n fuel hp hc with hq | ⟨e, q, c', hq, hstep, hi, hE, herr⟩ | ⟨err, hq⟩
    · rw [hq] at h; cases h
    · rw [hq] at h
      simp only at h
      cases hq2 : parseN S n fuel k q with
      | error e => rw [hq2] at h; cases h
      | ok r =>
        obtain ⟨os', p2⟩ := r
        rw [hq2] at h
        cases h
        simp only [events, List.mem_cons, not_or] at he
        have hne : e.data ≠ .streamEnd := fun h => he.1 h.symm
        have hc' : c' ≠ .ended := by
          rintro rfl
          cases c with
          | ended => exact hc rfl
          | start => cases hd : e.data <;> rw [hd] at hstep <;> cases hstep
          | docs => cases hd : e.data <;> rw [hd] at hstep <;> first | (exact hne hd) | cases hstep
          | doc fs =>
            cases fs with
            | nil => cases hd : e.data <;> rw [hd] at hstep <;> cases hstep
            | cons f K =>
              cases f <;> cases hd : e.data <;> rw [hd] at hstep <;> first | (cases K <;> cases hstep) | cases hstep
        have := ih ⟨hi, hE.2 hne, herr⟩ hc' hq2 (fun h => hf (.tail _ h)) he.2
        simp [events, this]
    · rw [hq] at h
      simp only at h
      cases hq2 : parseN S n fuel k { p with error := some err } with
      | error e => rw [hq2] at h; cases h
      | ok r =>
        rw [hq2] at h
        cases h
        exact absurd (.head _) hf

/-- The loop over the nodes of a document runs out of fuel only after that many events. -/
theorem loadNodes_fuel {room : Nat → Bool} {m : Nat} {s : CState} {p : Parser σ} (h : loadNodes room S n fuel m s p = .error .fuel) :
    ∃ w q, Evs S n fuel p w q ∧ (w.length = m ∨ parse S n fuel q = .error .fuel) := by
  induction m generalizing s p with
  | zero => exact ⟨[], p, .nil, .inl rfl⟩
  | succ m ih =>
    unfold loadNodes at h
    cases hp : parse S n fuel p with
    | error e =>
      rw [hp] at h
      simp only [Except.error.injEq] at h
      subst h
      exact ⟨[], p, .nil, .inr hp⟩
    | ok r =>
      obtain ⟨o, q⟩ := r
      rw [hp] at h
      cases o with
      | failed => cases h
      | noEvent => cases h
      | event e =>
        simp only at h
        split at h
        · cases h
        · cases hc : composeEvent room e s with
          | error er => rw [hc] at h; cases er <;> cases h
          | ok s' =>
            rw [hc] at h
            simp only at h
            obtain ⟨w, q', h1, h2⟩ := ih h
            exact ⟨e :: w, q', .cons hp h1, h2.imp (by intro h; simp [h]) id⟩

theorem loadRest_fuel {room : Nat → Bool} {m : Nat} {p : Parser σ} (h : loadRest room S n fuel m p = .error .fuel) :
    ∃ w q, Evs S n fuel p w q ∧ (m ≤ w.length ∨ parse S n fuel q = .error .fuel) := by
  unfold loadRest at h
  split at h
  · cases h
  cases hp : parse S n fuel p with
  | error e =>
    rw [hp] at h
    simp only [Except.error.injEq] at h
    subst h
    exact ⟨[], p, .nil, .inr hp⟩
  | ok r =>
    obtain ⟨o, q⟩ := r
    rw [hp] at h
    cases o with
    | failed => cases h
    | noEvent => cases h
    | event e =>
      simp only [loadDocument] at h
      cases hd : e.data with
      | documentStart v ts i =>
        rw [hd] at h
        simp only at h
        cases hl : loadNodes room S n fuel m {} q with
        | error er =>
          rw [hl] at h
          simp only [Except.error.injEq] at h
          subst h
          obtain ⟨w, q', h1, h2⟩ := loadNodes_fuel hl
          exact ⟨e :: w, q', .cons hp h1, h2.imp (by intro h; simp only [List.length_cons]; omega) id⟩
        | ok r => obtain ⟨o, q'⟩ := r; rw [hl] at h; cases o <;> cases h
      | _ => rw [hd] at h; cases h

theorem load_fuel {room : Nat → Bool} {m : Nat} {p : Parser σ} (h : load room S n fuel m p = .error .fuel) :
    ∃ w q, Evs S n fuel p w q ∧ (m ≤ w.length ∨ parse S n fuel q = .error .fuel) := by
  unfold load at h
  split at h
  · cases hp : parse S n fuel p with
    | error e =>
      rw [hp] at h
      simp only [Except.error.injEq] at h
      subst h
      exact ⟨[], p, .nil, .inr hp⟩
    | ok r =>
      obtain ⟨o, q⟩ := r
      rw [hp] at h
      cases o with
      | failed => cases h
      | noEvent => cases h
      | event e =>
        simp only at h
        cases hd : e.data with
        | streamStart enc =>
          rw [hd] at h
          obtain ⟨w, q', h1, h2⟩ := loadRest_fuel h
          exact ⟨e :: w, q', .cons hp h1, h2.imp (by intro h; simp only [List.length_cons]; omega) id⟩
        | _ => rw [hd] at h; cases h
  · exact loadRest_fuel h

theorem Evs.bounded (hB : Bounded S left) {w : List Event} {q : Parser σ} (h : Evs S n fuel (Parser.init x) w q) :
    w.length ≤ 4 * (left x + 1) := by
  have := events_bounded hB h.parseN
  rwa [events_map, List.length_map] at this

theorem evs_left (hB : Bounded S left) {w : List Event} {p q : Parser σ} {b : Nat} (h : Evs S n fuel p w q) (hb : left p.st.src ≤ b)
    (hf : b + 1 < fuel) : left q.st.src ≤ b := by
  induction h with
  | nil => exact hb
  | @cons p e q w r h1 _ ih =>
    have := nf_parse hB n fuel p b hb hf
    rw [h1] at this
    exact ih this

/-- A parser that has not failed got where it is by delivering events. -/
theorem loads_evs {room : Nat → Bool} {p r : Parser σ} {os : List LOut} (h : Loads room S n fuel p os r) (hos : .failed ∉ os) :
    ∃ w, Evs S n fuel p w r := by
  induction h with
  | nil => exact ⟨[], .nil⟩
  | cons h1 _ _ ih =>
    obtain ⟨w, hw⟩ := ih fun h => hos (.tail _ h)
    cases h1 with
    | doc _ h2 _ _ _ => exact ⟨_, h2.append hw⟩
    | last _ h2 _ _ => exact ⟨_, h2.append hw⟩
    | again => exact ⟨w, hw⟩
    | parserFails => exact absurd (.head _) hos
    | composerFails => exact absurd (.head _) hos

/-- Calls of the loader return until one fails. -/
theorem loadN_total (hS : S.Safe) (hB : Bounded S left) (room : Nat → Bool) (m k : Nat) (hf : left x + 1 < fuel)
    (hm : 4 * (left x + 1) < m) :
    ∃ j os r, j ≤ k ∧ loadN room S n fuel m j (Parser.init x) = .ok (os, r) ∧ (j = k ∨ .failed ∈ os) := by
  have hsnoc : ∀ (k : Nat) (p : Parser σ) (os : List LOut) (q r : Parser σ) (o : LOut), loadN room S n fuel m k p = .ok (os, q) →
      load room S n fuel m q = .ok (o, r) → loadN room S n fuel m (k + 1) p = .ok (os ++ [o], r) := by
    intro k
    induction k with
    | zero => intro p os q r o h1 h2; cases h1; simp only [loadN, h2]; rfl
    | succ k ih =>
      intro p os q r o h1 h2
      unfold loadN at h1
      cases hl : load room S n fuel m p with
      | error e => rw [hl] at h1; cases h1
      | ok y =>
        obtain ⟨o1, p1⟩ := y
        rw [hl] at h1
        simp only at h1
        cases hl2 : loadN room S n fuel m k p1 with
        | error e => rw [hl2] at h1; cases h1
        | ok y =>
          obtain ⟨os1, p2⟩ := y
          rw [hl2] at h1
          cases h1
          have := ih p1 os1 q r o hl2 h2
          rw [loadN, hl]
          simp only [this]
          rfl
  induction k with
  | zero => exact ⟨0, [], _, Nat.le_refl _, rfl, .inl rfl⟩
  | succ k ih =>
    obtain ⟨j, os, r, h1, h2, h3⟩ := ih
    by_cases hfail : .failed ∈ os
    · exact ⟨j, os, r, by omega, h2, .inr hfail⟩
    · have hj : j = k := by rcases h3 with h | h; exact h; exact absurd h hfail
      subst hj
      obtain ⟨hl, hlen⟩ := loadN_spec hS room n fuel m j (.inl (ready_init x)) h2
      obtain ⟨w, hw⟩ := loads_evs hl hfail
      have hready : Ready r .start ∨ Ready r .docs ∨ Ended r := by
        have h0 : Ready (Parser.init x) .start ∨ Ready (Parser.init x) .docs ∨ Ended (Parser.init x) := .inl (ready_init x)
        clear h2 hw h3 hlen
        generalize Parser.init x = p at hl h0
        induction hl with
        | nil => exact h0
        | cons h1 _ _ ih =>
          rcases h1.next with ⟨rfl, _⟩ | ⟨_, h2⟩
          · exact absurd (.head _) hfail
          · exact ih (fun hm => hfail (.tail _ hm)) (.inr h2)
      rcases load_spec hS room n fuel m hready with h4 | ⟨o, q, h4, _⟩
      · exfalso
        obtain ⟨v, q, h5, h6⟩ := load_fuel h4
        have hall := hw.append h5
        rcases h6 with h6 | h6
        · have := hall.bounded hB
          rw [List.length_append] at this
          omega
        · have hq := evs_left hB hall (b := left x) (Nat.le_refl _) hf
          have := nf_parse hB n fuel q (left x) hq hf
          rw [h6] at this
          exact this rfl
      · exact ⟨j + 1, os ++ [o], q, by omega, hsnoc _ _ _ _ _ _ h2 h4, .inl rfl⟩

end

end LibYaml
