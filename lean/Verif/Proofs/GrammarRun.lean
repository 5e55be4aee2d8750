import Verif.Proofs.PushDownRef
import Verif.Proofs.GrammarSound
import Verif.Proofs.ParserEnd
import Verif.Props.Parser

/-! Calls of the parser are runs of the push-down automaton. -/

namespace LibYaml

open Spec

variable {σ : Type} {S : TokSrc σ} {x : σ} {n : Int} {fuel : Nat}

theorem seg_length {f : Nat → Option TokData} {ts : List TokData} {k k' : Nat} (h : Seg f k ts k') : k' = k + ts.length := by
  induction ts generalizing k with
  | nil => exact (h : k = k').symm
  | cons t ts ih => have := ih h.2; simp only [List.length_cons]; omega

theorem after_of_feeds {ts : List Token} {y : σ} (h : Feeds S x ts y) :
    S.after x ts.length = some y ∧ Seg (S.tok x) 0 (ts.map Token.data) ts.length := by
  induction h with
  | nil => exact ⟨rfl, rfl⟩
  | @snoc ts y t z _ hn ih =>
    obtain ⟨h1, h2⟩ := ih
    rw [List.length_append, List.map_append]
    refine ⟨?_, seg_append.mpr ⟨ts.length, h2, ?_⟩⟩
    · simp only [List.length_cons, List.length_nil, TokSrc.after, h1, hn]
    · exact seg_one.mpr ⟨by simp only [TokSrc.tok, h1, hn], rfl⟩

theorem feeds_of_seg {ts : List TokData} {k k' : Nat} {toks : List Token} {y : σ} (hs : Seg (S.tok x) k ts k')
    (hf : Feeds S x toks y) (hk : S.after x k = some y) :
    ∃ toks' z, Feeds S x (toks ++ toks') z ∧ toks'.map Token.data = ts ∧ S.after x k' = some z := by
  induction ts generalizing k toks y with
  | nil =>
    have : k = k' := hs
    subst this
    exact ⟨[], y, by simpa using hf, rfl, hk⟩
  | cons t ts ih =>
    obtain ⟨h1, h2⟩ := hs
    simp only [TokSrc.tok, hk] at h1
    cases hn : S.next y with
    | error e => rw [hn] at h1; cases h1
    | ok r =>
      obtain ⟨tok, z⟩ := r
      rw [hn] at h1
      simp only [Option.some.injEq] at h1
      have hz : S.after x (k + 1) = some z := by simp only [TokSrc.after, hk, hn]
      obtain ⟨toks', z', hf', hm, ha⟩ := ih h2 (.snoc hf hn) hz
      exact ⟨tok :: toks', z', by rw [List.append_assoc] at hf'; exact hf', by rw [List.map_cons, hm, h1], ha⟩

theorem feeds_of_after {k : Nat} {y : σ} (h : S.after x k = some y) : ∃ toks, Feeds S x toks y := by
  induction k generalizing y with
  | zero => cases h; exact ⟨[], .nil x⟩
  | succ k ih =>
    simp only [TokSrc.after] at h
    cases ha : S.after x k with
    | none => rw [ha] at h; cases h
    | some z =>
      rw [ha] at h
      simp only at h
      cases hn : S.next z with
      | error e => rw [hn] at h; cases h
      | ok r =>
        obtain ⟨t, w⟩ := r
        rw [hn] at h
        cases h
        obtain ⟨toks, hf⟩ := ih ha
        exact ⟨toks ++ [t], .snoc hf hn⟩

theorem init_rel (x : σ) : ARel S x ({ src := x } : PS σ) ⟨.streamStart, [], 0, []⟩ := ⟨⟨.inl ⟨rfl, rfl⟩, rfl, rfl⟩, rfl⟩

/-- The events of successful calls are a run. -/
theorem runs_of_parse {k : Nat} {p p' : Parser σ} {os : List POut} {c : AC} (hr : ARel S x p.st c)
    (h : parseN S n fuel k p = .ok (os, p')) : ∃ c', Runs (S.tok x) fuel c (events os) c' ∧ ARel S x p'.st c' := by
  induction k generalizing p os c with
  | zero => cases h; exact ⟨c, rfl, hr⟩
  | succ k ih =>
    simp only [parseN] at h
    cases hp : parse S n fuel p with
    | error e => rw [hp] at h; cases h
    | ok r =>
      obtain ⟨o, q⟩ := r
      rw [hp] at h
      simp only at h
      cases hq : parseN S n fuel k q with
      | error e => rw [hq] at h; cases h
      | ok r =>
        obtain ⟨os', p2⟩ := r
        rw [hq] at h
        cases h
        rcases parse_cases hp with ⟨rfl, rfl, _⟩ | ⟨e, st, rfl, rfl, hs, _, hd⟩ | ⟨e, rfl, rfl, _⟩
        · simpa only [events] using ih hr hq
        · obtain ⟨c1, h1, h2⟩ := wp_ok (ref_stateMachine n fuel hr) hs
          obtain ⟨c', h3, h4⟩ := ih (p := { p with st := st }) h2 hq
          exact ⟨c', ⟨c1, h1, h3⟩, h4⟩
        · simpa only [events] using ih (p := { p with error := some e }) hr hq

/-- A run is the events of that many successful calls. -/
theorem parse_of_runs (hS : S.Safe) (hsh : Shallow S x n) {evs : List EvData} {p : Parser σ} {c c' : AC} {g : Cfg}
    (hr : ARel S x p.st c) (hp : PInv p.st g) (he : EInv p.st ∨ p.st.state = .done) (herr : p.error = none)
    (h : Runs (S.tok x) fuel c evs c') :
    ∃ (es : List Event) (p' : Parser σ), es.map Event.data = evs ∧ parseN S n fuel evs.length p = .ok (es.map .event, p') ∧ ARel S x p'.st c' := by
  induction evs generalizing p c g with
  | nil =>
    have : c = c' := h
    subst this
    exact ⟨[], p, rfl, rfl, hr⟩
  | cons e evs ih =>
    obtain ⟨c1, h1, h2⟩ := h
    have hnd : p.st.state ≠ .done := by
      intro hd
      have hc : c.st = .done := by rw [← hr.st, hd]
      simp only [astep, hc] at h1
      cases h1
    have hE : EInv p.st := by rcases he with h | h; exact h; exact absurd h hnd
    have hcond : (p.st.ended || p.error.isSome || p.st.state = .done) = false := by simp [hE.ended, herr, hnd]
    have href := ref_stateMachine n fuel hr
    have hwp := wp_stateMachine hS n fuel hp hnd
    have hen := en_stateMachine (S := S) (n := n) fuel hE
    cases hs : stateMachine S n fuel p.st with
    | error err =>
      exfalso
      have hx : _ = none ∨ err = .ub ∨ ¬ Shallow S x n := wp_error href hs
      rcases hx with h | h | h
      · rw [h] at h1; cases h1
      · subst h; exact wp_error hwp hs rfl
      · exact h hsh
    | ok r =>
      obtain ⟨ev, st⟩ := r
      obtain ⟨c2, h3, h4⟩ := wp_ok href hs
      rw [h1] at h3
      cases h3
      obtain ⟨g', _, hp'⟩ := wp_ok hwp hs
      have hpost : EPost ev st := wp_ok hen hs
      obtain ⟨es, p', h5, h6, h7⟩ := ih (p := { p with st := st }) h4 hp' (by
        by_cases hd : ev.data = .streamEnd
        · exact .inr (hpost.1 hd).2
        · exact .inl (hpost.2 hd)) herr h2
      refine ⟨ev :: es, p', by simp [h5], ?_, h7⟩
      simp only [List.length_cons, parseN, parse_event hcond hs, h6]
      rfl

/-- The run is determined by where it starts. -/
theorem runs_unique {f : Nat → Option TokData} {evs evs' : List EvData} {c d d' : AC} (hd : d.st = .done) (hd' : d'.st = .done)
    (h : Runs f fuel c evs d) (h' : Runs f fuel c evs' d') : evs = evs' ∧ d = d' := by
  induction evs generalizing c evs' with
  | nil =>
    have : c = d := h
    subst this
    cases evs' with
    | nil => exact ⟨rfl, h'⟩
    | cons e es =>
      obtain ⟨c1, h1, _⟩ := h'
      simp only [astep, hd] at h1
      cases h1
  | cons e evs ih =>
    obtain ⟨c1, h1, h2⟩ := h
    cases evs' with
    | nil =>
      have : c = d' := h'
      subst this
      simp only [astep, hd'] at h1
      cases h1
    | cons e' evs' =>
      obtain ⟨c2, h3, h4⟩ := h'
      rw [h1] at h3
      cases h3
      obtain ⟨rfl, hq⟩ := ih h2 h4
      exact ⟨rfl, hq⟩

end LibYaml
