import Verif.Proofs.LoaderSpec
import Verif.Proofs.ParserEnd
import Verif.Props.Parser

/-! What one call of `load` does, in terms of the events returned by `parse`. -/

namespace LibYaml

open Spec

variable {σ : Type}

/-- Successive calls of `parse` return the events `w`. -/
inductive Evs (S : TokSrc σ) (n : Int) (fuel : Nat) : Parser σ → List Event → Parser σ → Prop
  | nil {p} : Evs S n fuel p [] p
  | cons {p e q w r} : parse S n fuel p = .ok (.event e, q) → Evs S n fuel q w r → Evs S n fuel p (e :: w) r

theorem Evs.append {S : TokSrc σ} {n : Int} {fuel : Nat} {p q r : Parser σ} {v w : List Event} (h1 : Evs S n fuel p v q)
    (h2 : Evs S n fuel q w r) : Evs S n fuel p (v ++ w) r := by
  induction h1 with
  | nil => exact h2
  | cons hp _ ih => exact .cons hp (ih h2)

theorem Evs.one {S : TokSrc σ} {n : Int} {fuel : Nat} {p q : Parser σ} {e : Event} (h : parse S n fuel p = .ok (.event e, q)) :
    Evs S n fuel p [e] q := .cons h .nil

/-- The events of `Evs` are those of `parseN`. -/
theorem Evs.parseN {S : TokSrc σ} {n : Int} {fuel : Nat} {p q : Parser σ} {w : List Event} (h : Evs S n fuel p w q) :
    parseN S n fuel w.length p = .ok (w.map .event, q) := by
  induction h with
  | nil => rfl
  | cons hp _ ih => simp only [List.length_cons, LibYaml.parseN, hp, ih, List.map_cons]

theorem events_map (w : List Event) : events (w.map .event) = w.map Event.data := by
  induction w with
  | nil => rfl
  | cons e w ih => simp only [List.map_cons, events, ih]

/-- Ready to parse on. -/
structure Ready (p : Parser σ) (c : Cfg) : Prop where
  inv : PInv p.st c
  going : EInv p.st
  err : p.error = none

theorem ready_init (x : σ) : Ready (Parser.init x) .start := ⟨init_inv x, init_einv x, rfl⟩

theorem pinv_done {s : PS σ} {c : Cfg} (h : PInv s c) (hc : c ≠ .ended) : s.state ≠ .done := by
  intro hd
  have hr := h.rel
  rw [hd] at hr
  generalize s.states = K at hr
  cases hr with
  | inner ht => cases ht
  | done => exact hc rfl

theorem pinv_start {s : PS σ} {c : Cfg} (h : PInv s c) : s.state = .streamStart ↔ c = .start := by
  have hr := h.rel
  generalize s.states = K at hr
  constructor
  · intro hd
    rw [hd] at hr
    cases hr with
    | inner ht => cases ht
    | start => rfl
  · rintro rfl
    generalize hs : s.state = st at hr
    cases hr
    rfl

theorem parse_step {S : TokSrc σ} (hS : S.Safe) (n : Int) (fuel : Nat) {p : Parser σ} {c : Cfg} (h : Ready p c)
    (hc : c ≠ .ended) :
    parse S n fuel p = .error .fuel ∨
    (∃ e q c', parse S n fuel p = .ok (.event e, q) ∧ c.step e.data = some c' ∧ PInv q.st c' ∧ EPost e q.st ∧ q.error = none) ∨
    (∃ err, parse S n fuel p = .ok (.failed, { p with error := some err })) := by
  have hd := pinv_done h.inv hc
  have hcond : (p.st.ended || p.error.isSome || p.st.state = .done) = false := by
    simp [h.going.ended, h.err, hd]
  have h1 := wp_stateMachine hS n fuel h.inv hd
  have h2 := en_stateMachine (S := S) (n := n) fuel h.going
  unfold parse
  rw [hcond]
  simp only [Bool.false_eq_true, if_false]
  cases hm : stateMachine S n fuel p.st with
  | ok r =>
    obtain ⟨e, st⟩ := r
    obtain ⟨c', hc', hi⟩ := wp_ok h1 hm
    have hE := wp_ok h2 hm
    right; left
    exact ⟨e, _, c', rfl, hc', hi, hE, h.err⟩
  | error err =>
    have hn := wp_error h1 hm
    cases err <;> first | (exact absurd rfl hn) | (exact .inl rfl) | (right; right; exact ⟨_, rfl⟩)

/-- A parser in which a load has failed. -/
structure Failed (p : Parser σ) : Prop where
  err : p.error.isSome = true
  going : p.st.ended = false

/-- No DOCUMENT-END among the events. -/
def NoEnd (w : List Event) : Prop := ∀ e ∈ w, ∀ b, e.data ≠ .documentEnd b

theorem loadNodes_spec {S : TokSrc σ} (hS : S.Safe) (room : Nat → Bool) (n : Int) (fuel k : Nat) :
    ∀ {p : Parser σ} {s : CState} {fs : List Frame} {w0 : List Event}, Ready p (.doc fs) → CRel s.nodes s.ctx fs →
      composeAll room w0 {} = .ok s → NoEnd w0 → (Cfg.doc [.docNode]).run (w0.map Event.data) = some (.doc fs) →
      loadNodes room S n fuel k s p = .error .fuel ∨
      (∃ w p1 q, Evs S n fuel p w p1 ∧ parse S n fuel p1 = .ok (.failed, q) ∧ loadNodes room S n fuel k s p = .ok (.failed, q) ∧
        Failed q) ∨
      (∃ w p1 err gs, Evs S n fuel p w p1 ∧ NoEnd (w0 ++ w) ∧
        (Cfg.doc [.docNode]).run ((w0 ++ w).map Event.data) = some (.doc gs) ∧ composeAll room (w0 ++ w) {} = .error err ∧
        loadNodes room S n fuel k s p = .ok (.failed, { p1 with error := some err }) ∧ p1.st.ended = false) ∨
      (∃ w ee b s' q, Evs S n fuel p (w ++ [ee]) q ∧ NoEnd (w0 ++ w) ∧
        (Cfg.doc [.docNode]).run ((w0 ++ w).map Event.data) = some (.doc [.docEnd]) ∧ composeAll room (w0 ++ w) {} = .ok s' ∧
        ee.data = .documentEnd b ∧ loadNodes room S n fuel k s p = .ok (.done s' b ee.stop, q) ∧ Ready q .docs) := by
  induction k with
  | zero => intro p s fs w0 _ _ _ _ _; left; rfl
  | succ k ih =>
    intro p s fs w0 hp hr h0 hne hrun
    rcases parse_step hS n fuel hp (by simp) with hq | ⟨e, q, c', hq, hstep, hi, hE, herr⟩ | ⟨err, hq⟩
    · left; simp only [loadNodes, hq]
    · have hns : e.data ≠ .streamEnd := by
        intro h; rw [h] at hstep
        cases fs with
        | nil => cases hstep
        | cons f K => cases f <;> cases hstep
      by_cases hde : ∃ b, e.data = .documentEnd b
      · obtain ⟨b, hb⟩ := hde
        have : fs = [.docEnd] ∧ c' = .docs := by
          rw [hb] at hstep
          cases fs with
          | nil => cases hstep
          | cons f K =>
            cases f with
            | docEnd => cases K with
              | nil => cases hstep; exact ⟨rfl, rfl⟩
              | cons => cases hstep
            | _ => cases hstep
        obtain ⟨rfl, rfl⟩ := this
        right; right; right
        refine ⟨[], e, b, s, q, Evs.one hq, by simpa using hne, by simpa using hrun, by simpa using h0, hb, ?_, ⟨hi, hE.2 hns, herr⟩⟩
        simp only [loadNodes, hq, hb]
      · have hcf : ∃ gs, c' = .doc gs := by
          cases fs with
          | nil => cases hd : e.data <;> rw [hd] at hstep <;> cases hstep
          | cons f K =>
            cases hd : e.data <;> rw [hd] at hstep <;>
              first
              | (simp only [Cfg.step, Option.map_eq_some_iff] at hstep; obtain ⟨g, _, rfl⟩ := hstep; exact ⟨_, rfl⟩)
              | (exact (hde ⟨_, hd⟩).elim)
              | (cases f <;> cases hstep <;> exact ⟨_, rfl⟩)
        obtain ⟨gs, rfl⟩ := hcf
        have hne' : NoEnd (w0 ++ [e]) := by
          intro x hx b
          rcases List.mem_append.mp hx with hx | hx
          · exact hne x hx b
          · rw [List.mem_singleton] at hx; subst hx; intro h; exact hde ⟨b, h⟩
        have hrun' : (Cfg.doc [.docNode]).run ((w0 ++ [e]).map Event.data) = some (.doc gs) := by
          rw [List.map_append, Cfg.run_append, hrun]
          simp only [Option.bind_some, List.map_cons, List.map_nil, Cfg.run, hstep]
        obtain ⟨hub, hrel⟩ := composeEvent_rel (room := room) hr hstep
        have hcomp : composeAll room (w0 ++ [e]) {} = composeEvent room e s := by
          rw [composeAll_append_ok h0]
          simp only [composeAll]
          cases composeEvent room e s <;> rfl
        have hunf : loadNodes room S n fuel (k + 1) s p =
            match composeEvent room e s with
            | .ok s => loadNodes room S n fuel k s q
            | .error .ub => .error .ub
            | .error err => .ok (.failed, { q with error := some err }) := by
          simp only [loadNodes, hq]
          cases hd : e.data <;> first | rfl | (exact (hde ⟨_, hd⟩).elim)
        cases hce : composeEvent room e s with
        | error err =>
          right; right; left
          refine ⟨[e], q, err, gs, Evs.one hq, hne', hrun', by rw [hcomp, hce], ?_, (hE.2 hns).ended⟩
          rw [hunf, hce]
          cases err <;> first | rfl | (exact absurd hce hub)
        | ok s' =>
          rw [hce] at hcomp hunf
          rcases ih ⟨hi, hE.2 hns, herr⟩ (hrel s' hce) hcomp hne' hrun' with h | ⟨w, p1, q1, ha, hb, hc, hd⟩ |
            ⟨w, p1, err, gs', ha, hb, hc, hd, he, hf⟩ | ⟨w, ee, b, s'', q1, ha, hb, hc, hd, he, hf, hg⟩
          · left; rw [hunf]; exact h
          · right; left; exact ⟨e :: w, p1, q1, .cons hq ha, hb, by rw [hunf]; exact hc, hd⟩
          · right; right; left
            rw [List.append_assoc, List.singleton_append] at hb hc hd
            exact ⟨e :: w, p1, err, gs', .cons hq ha, hb, hc, hd, by rw [hunf]; exact he, hf⟩
          · right; right; right
            rw [List.append_assoc, List.singleton_append] at hb hc hd
            exact ⟨e :: w, ee, b, s'', q1, .cons hq ha, hb, hc, hd, he, by rw [hunf]; exact hf, hg⟩
    · right; left
      exact ⟨[], p, _, .nil, hq, by simp only [loadNodes, hq], ⟨rfl, hp.going.ended⟩⟩

/-! ### From runs of the automaton to the grammar -/

theorem g_noEnd {s : Sym} {w : List EvData} (h : G s w) : ∀ b, .documentEnd b ∉ w := by
  induction h with
  | alias => simp
  | scalar => simp
  | seq _ _ _ _ _ ih => intro b; simp [ih b]
  | map _ _ _ _ _ ih => intro b; simp [ih b]
  | nodesNil => simp
  | nodesCons _ _ ih1 ih2 => intro b; simp [ih1 b, ih2 b]
  | pairsNil => simp
  | pairsCons _ _ _ ih1 ih2 ih3 => intro b; simp [ih1 b, ih2 b, ih3 b]

theorem split_at_end {v w x y : List EvData} {i j : Bool} (hv : ∀ b, .documentEnd b ∉ v) (hw : ∀ b, .documentEnd b ∉ w)
    (h : v ++ .documentEnd i :: x = w ++ .documentEnd j :: y) : v = w := by
  induction v generalizing w with
  | nil =>
    cases w with
    | nil => rfl
    | cons e w =>
      simp only [List.nil_append, List.cons_append, List.cons.injEq] at h
      rw [← h.1] at hw
      exact absurd (.head _) (hw i)
  | cons e v ih =>
    cases w with
    | nil =>
      simp only [List.nil_append, List.cons_append, List.cons.injEq] at h
      rw [h.1] at hv
      exact absurd (.head _) (hv j)
    | cons f w =>
      simp only [List.cons_append, List.cons.injEq] at h
      rw [h.1, ih (fun b hb => hv b (.tail _ hb)) (fun b hb => hw b (.tail _ hb)) h.2]

theorem node_of_run {w : List Event} (hne : NoEnd w) (h : (Cfg.doc [.docNode]).run (w.map Event.data) = some (.doc [.docEnd])) :
    G .node (w.map Event.data) := by
  have hl := lcfg_run h (w := [.documentEnd true] ++ ([] ++ [.streamEnd])) (.doc (.one (.inr rfl) (.docEnd true)) .nil)
  generalize hz : List.map Event.data w ++ ([.documentEnd true] ++ ([] ++ [.streamEnd])) = z at hl
  cases hl with
  | doc hf hd =>
    cases hf with
    | one _ hf =>
      cases hf with
      | docNode i hn =>
        rw [List.append_assoc] at hz
        simp only [List.singleton_append] at hz
        have hw : ∀ b, EvData.documentEnd b ∉ w.map Event.data := by
          intro b hb
          obtain ⟨e, he, hd⟩ := List.mem_map.mp hb
          exact hne e he b hd
        rw [split_at_end hw (g_noEnd hn) hz]
        exact hn
    | cons h1 => exact absurd rfl h1

/-- Composing with limits: success, the first fault with anchors, or lack of memory. -/
theorem compose_outcome (room : Nat → Bool) {w : List Event} {gs : List Frame} (hne : NoEnd w)
    (hr : (Cfg.doc [.docNode]).run (w.map Event.data) = some (.doc gs)) :
    match composeAll room w {} with
    | .ok s => anchorFault [] w = none ∧ composeAll allRoom w {} = .ok s
    | .error err => anchorFault [] w = some err ∨ err = .memory ∧ ∃ k, k < w.length ∧ room k = false := by
  have hf := compose_fault w {} _ gs (.root (.inl rfl)) hr hne
  have hsm : composeAll room w {} = composeAll allRoom w {} ∨
      composeAll room w {} = .error .memory ∧ ∃ k, k < w.length ∧ room k = false := by
    by_cases hk : ∃ k, k < w.length ∧ room k = false
    · rcases composeAll_room room w {} with h | h
      · exact .inr ⟨h, hk⟩
      · exact .inl h
    · left
      refine composeAll_small (m := 0) w ?_ ⟨Nat.le_refl _, Nat.le_refl _, by simp⟩
      intro k hlt
      cases hb : room k with
      | true => rfl
      | false => exact absurd ⟨k, by omega, hb⟩ hk
  rcases hsm with h | ⟨h, hk⟩
  · rw [h]
    change match anchorFault [] w with | some e => _ | none => _ at hf
    cases hx : anchorFault [] w with
    | none => rw [hx] at hf; obtain ⟨s', h1, _⟩ := hf; rw [h1]; exact ⟨rfl, rfl⟩
    | some e => rw [hx] at hf; simp only at hf; rw [hf]; exact .inl rfl
  · rw [h]; exact .inr ⟨rfl, hk⟩

/-! ### One call of load -/

/-- The stream has ended. -/
structure Ended (p : Parser σ) : Prop where
  ended : p.st.ended = true
  err : p.error = none
  state : p.st.state ≠ .streamStart

/-- Before its first call returns, `yaml_parser_load` consumes STREAM-START. -/
def PreOf (p : Parser σ) (pre : List Event) : Prop :=
  if p.st.state = .streamStart then ∃ e enc, pre = [e] ∧ e.data = .streamStart enc else pre = []

/-- What a call of `yaml_parser_load` can do, from the parser `p`; `pre` is STREAM-START if it has not been returned. -/
inductive Loaded (room : Nat → Bool) (S : TokSrc σ) (n : Int) (fuel : Nat) (p : Parser σ) : LOut → Parser σ → Prop
  | doc {pre w d q} : PreOf p pre → Evs S n fuel p (pre ++ w) q → RepDoc w d →
      (∃ es body ee, w = es :: body ++ [ee] ∧ anchorFault [] body = none ∧ G .node (body.map Event.data)) → Ready q .docs →
      Loaded room S n fuel p (.doc d) q
  | last {pre e q} : PreOf p pre → Evs S n fuel p (pre ++ [e]) q →
      e.data = .streamEnd → Ended q → Loaded room S n fuel p (.doc Doc.empty) q
  | again : Ended p → Loaded room S n fuel p (.doc Doc.empty) p
  | parserFails {w p1 q} : Evs S n fuel p w p1 → parse S n fuel p1 = .ok (.failed, q) → Failed q → Loaded room S n fuel p .failed q
  | composerFails {pre es v ts i w p1 err} : PreOf p pre →
      Evs S n fuel p (pre ++ es :: w) p1 → es.data = .documentStart v ts i →
      (anchorFault [] w = some err ∨ err = .memory ∧ ∃ k, k < w.length ∧ room k = false) → p1.st.ended = false → NoEnd w →
      Loaded room S n fuel p .failed { p1 with error := some err }

theorem Loaded.shift {S : TokSrc σ} {n : Int} {fuel : Nat} {room} {p q r : Parser σ} {e : Event} {o : LOut} {enc}
    (hp : p.st.state = .streamStart) (h : parse S n fuel p = .ok (.event e, q)) (he : e.data = .streamStart enc)
    (hq : Ready q .docs) (hl : Loaded room S n fuel q o r) : Loaded room S n fuel p o r := by
  have hne : q.st.state ≠ .streamStart := fun h => by cases (pinv_start hq.inv).mp h
  have hpre : ∀ {pre}, PreOf q pre → pre = [] := by
    intro pre h; unfold PreOf at h; rw [if_neg hne] at h; exact h
  have hpre' : PreOf p [e] := by unfold PreOf; rw [if_pos hp]; exact ⟨e, enc, rfl, he⟩
  cases hl with
  | doc h1 h2 h3 h4 h5 => cases hpre h1; exact .doc (pre := [e]) hpre' (.cons h h2) h3 h4 h5
  | last h1 h2 h3 h4 => cases hpre h1; exact .last (pre := [e]) hpre' (.cons h h2) h3 h4
  | again h1 => have := h1.ended; rw [hq.going.ended] at this; cases this
  | parserFails h1 h2 h3 => exact .parserFails (.cons h h1) h2 h3
  | composerFails h1 h2 h3 h4 h5 h6 => cases hpre h1; exact .composerFails (pre := [e]) hpre' (.cons h h2) h3 h4 h5 h6

theorem loadRest_spec {S : TokSrc σ} (hS : S.Safe) (room : Nat → Bool) (n : Int) (fuel k : Nat) {p : Parser σ}
    (h : Ready p .docs) : loadRest room S n fuel k p = .error .fuel ∨
      ∃ o q, loadRest room S n fuel k p = .ok (o, q) ∧ Loaded room S n fuel p o q := by
  have hne : p.st.state ≠ .streamStart := fun hs => by cases (pinv_start h.inv).mp hs
  have hpre : PreOf p [] := by unfold PreOf; rw [if_neg hne]
  rcases parse_step hS n fuel h (by simp) with hq | ⟨e, q, c', hq, hstep, hi, hE, herr⟩ | ⟨err, hq⟩
  · left; simp only [loadRest, h.going.ended, hq]; rfl
  · cases hd : e.data with
    | streamEnd =>
      right
      rw [hd] at hstep
      cases hstep
      refine ⟨.doc Doc.empty, q, by simp only [loadRest, h.going.ended, hq, hd]; rfl, ?_⟩
      refine .last (pre := []) hpre (Evs.one hq) hd ⟨(hE.1 hd).1, herr, ?_⟩
      rw [(hE.1 hd).2]; simp
    | documentStart v ts i =>
      have hns : e.data ≠ .streamEnd := by rw [hd]; simp
      rw [hd] at hstep
      cases hstep
      have hunf : loadRest room S n fuel k p =
          match loadNodes room S n fuel k {} q with
          | .error err => .error err
          | .ok (.failed, p) => .ok (.failed, p)
          | .ok (.done s endImplicit stop, p) =>
            .ok (.doc { nodes := s.nodes, version := v, tags := ts, startImplicit := i, endImplicit, start := e.start, stop }, p) := by
        simp only [loadRest, h.going.ended, hq, hd, loadDocument]; rfl
      rcases loadNodes_spec hS room n fuel k (s := {}) (w0 := []) ⟨hi, hE.2 hns, herr⟩ (.root (.inl rfl)) rfl (by intro e he; cases he) rfl
        with hl | ⟨w, p1, q1, ha, hb, hc, hdd⟩ | ⟨w, p1, err, gs, ha, hb, hc, hdd, he, hf⟩ |
          ⟨w, ee, b, s, q1, ha, hb, hc, hdd, he, hf, hg⟩
      · left; rw [hunf, hl]
      · right
        exact ⟨.failed, q1, by rw [hunf, hc], .parserFails (.cons hq ha) hb hdd⟩
      · right
        simp only [List.nil_append] at hb hc hdd
        have hx := compose_outcome room hb hc
        rw [hdd] at hx
        exact ⟨.failed, _, by rw [hunf, he], .composerFails (pre := []) hpre (.cons hq ha) hd hx hf hb⟩
      · right
        simp only [List.nil_append] at hb hc hdd
        have hx := compose_outcome room hb hc
        rw [hdd] at hx
        have hgn := node_of_run hb hc
        obtain ⟨A, hA⟩ := (compose_iff hgn s.nodes).mp ⟨s, hx.2, rfl⟩
        refine ⟨.doc _, q1, by rw [hunf, hf], .doc (pre := []) (w := e :: w ++ [ee]) hpre (.cons hq ha) ?_ ?_ hg⟩
        · exact ⟨e, w, ee, A, rfl, hd, rfl, he, rfl, hA⟩
        · exact ⟨e, w, ee, rfl, hx.1, hgn⟩
    | _ => rw [hd] at hstep; cases hstep
  · right
    refine ⟨.failed, _, by simp only [loadRest, h.going.ended, hq]; rfl, .parserFails .nil hq ⟨rfl, h.going.ended⟩⟩

/-- One call, from a parser in which no call has failed. -/
theorem load_spec {S : TokSrc σ} (hS : S.Safe) (room : Nat → Bool) (n : Int) (fuel k : Nat) {p : Parser σ}
    (h : Ready p .start ∨ Ready p .docs ∨ Ended p) : load room S n fuel k p = .error .fuel ∨
      ∃ o q, load room S n fuel k p = .ok (o, q) ∧ Loaded room S n fuel p o q := by
  rcases h with h | h | h
  · have hst := (pinv_start h.inv).mpr rfl
    simp only [load, if_pos hst]
    rcases parse_step hS n fuel h (by simp) with hq | ⟨e, q, c', hq, hstep, hi, hE, herr⟩ | ⟨err, hq⟩
    · left; rw [hq]
    · rw [hq]
      cases hd : e.data with
      | streamStart enc =>
        have hns : e.data ≠ .streamEnd := by rw [hd]; simp
        rw [hd] at hstep
        cases hstep
        have hr : Ready q .docs := ⟨hi, hE.2 hns, herr⟩
        rcases loadRest_spec hS room n fuel k hr with hl | ⟨o, r, hl, hL⟩
        · left; simp only [hd, hl]
        · right; exact ⟨o, r, by simp only [hd, hl], hL.shift hst hq hd hr⟩
      | _ => rw [hd] at hstep; cases hstep
    · right; exact ⟨.failed, _, by rw [hq], .parserFails .nil hq ⟨rfl, h.going.ended⟩⟩
  · have hst : p.st.state ≠ .streamStart := fun hs => by cases (pinv_start h.inv).mp hs
    simp only [load, if_neg hst]
    exact loadRest_spec hS room n fuel k h
  · right
    exact ⟨.doc Doc.empty, p, by simp only [load, if_neg h.state, loadRest, h.ended]; rfl, .again h⟩

/-- A call after a failed one always hits a failing assertion. -/
theorem load_failed (S : TokSrc σ) (room : Nat → Bool) (n : Int) (fuel k : Nat) {p : Parser σ} (h : Failed p) :
    load room S n fuel k p = .error .ub := by
  have hp : parse S n fuel p = .ok (.noEvent, p) := by
    unfold parse
    rw [show (p.st.ended || p.error.isSome || p.st.state = .done) = true by simp [h.err]]
    rfl
  unfold load loadRest
  rw [hp, h.going]
  by_cases hs : p.st.state = .streamStart
  · rw [if_pos hs]
  · rw [if_neg hs]; rfl

/-- The parser after a call. -/
theorem Loaded.next {S : TokSrc σ} {n : Int} {fuel : Nat} {room} {p q : Parser σ} {o : LOut} (h : Loaded room S n fuel p o q) :
    (o = .failed ∧ Failed q) ∨ (o ≠ .failed ∧ (Ready q .docs ∨ Ended q)) := by
  cases h with
  | doc _ _ _ _ h => exact .inr ⟨by simp, .inl h⟩
  | last _ _ _ h => exact .inr ⟨by simp, .inr h⟩
  | again h => exact .inr ⟨by simp, .inr h⟩
  | parserFails _ _ h => exact .inl ⟨rfl, h⟩
  | composerFails _ _ _ _ h _ => exact .inl ⟨rfl, rfl, h⟩

/-- Successive calls. -/
inductive Loads (room : Nat → Bool) (S : TokSrc σ) (n : Int) (fuel : Nat) : Parser σ → List LOut → Parser σ → Prop
  | nil {p} : Loads room S n fuel p [] p
  | cons {p o q os r} : Loaded room S n fuel p o q → (o = .failed → os = []) → Loads room S n fuel q os r → Loads room S n fuel p (o :: os) r

/-- Many calls: no assertion fails before a call has failed, and results come only from calls up to the first failed one. -/
theorem loadN_spec {S : TokSrc σ} (hS : S.Safe) (room : Nat → Bool) (n : Int) (fuel m k : Nat) {p : Parser σ}
    (h : Ready p .start ∨ Ready p .docs ∨ Ended p) {os : List LOut} {r : Parser σ}
    (hl : loadN room S n fuel m k p = .ok (os, r)) : Loads room S n fuel p os r ∧ os.length = k := by
  induction k generalizing p os with
  | zero => cases hl; exact ⟨.nil, rfl⟩
  | succ k ih =>
    simp only [loadN] at hl
    rcases load_spec hS room n fuel m h with h1 | ⟨o, q, h1, h2⟩
    · rw [h1] at hl; cases hl
    · rw [h1] at hl
      simp only at hl
      cases h3 : loadN room S n fuel m k q with
      | error e => rw [h3] at hl; cases hl
      | ok x =>
        obtain ⟨os', r'⟩ := x
        rw [h3] at hl
        cases hl
        rcases h2.next with ⟨rfl, hf⟩ | ⟨hne, hq⟩
        · cases k with
          | zero => cases h3; exact ⟨.cons h2 (fun _ => rfl) .nil, rfl⟩
          | succ k =>
            simp only [loadN, load_failed S room n fuel m hf] at h3
            cases h3
        · obtain ⟨h4, h5⟩ := ih (.inr hq) h3
          exact ⟨.cons h2 (fun h => absurd h hne) h4, by simp [h5]⟩

end LibYaml
