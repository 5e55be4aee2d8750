import Verif.Proofs.ParserTags

/-!
# Properties C25–C30: the parser

For every token source (so for every scanner and every input) and every number of calls.
-/

namespace LibYaml

open Spec

variable {σ : Type}

/-- The events among the results of a sequence of calls. -/
def events : List POut → List EvData
  | [] => []
  | .event e :: os => e.data :: events os
  | _ :: os => events os

/-! ### One call, many calls -/

/-- What a call of `yaml_parser_parse` does, by cases. -/
theorem parse_cases {S : TokSrc σ} {n : Int} {fuel : Nat} {p p' : Parser σ} {o : POut}
    (h : parse S n fuel p = .ok (o, p')) :
    (o = .noEvent ∧ p' = p ∧ (p.st.ended = true ∨ p.error.isSome = true ∨ p.st.state = .done)) ∨
    (∃ e st, o = .event e ∧ p' = { p with st := st } ∧ stateMachine S n fuel p.st = .ok (e, st) ∧ p.error = none ∧ p.st.state ≠ .done) ∨
    (∃ e, o = .failed ∧ p' = { p with error := some e } ∧ stateMachine S n fuel p.st = .error e ∧ p.error = none ∧
      e ≠ .ub ∧ e ≠ .fuel) := by
  unfold parse at h
  split at h
  next hc =>
    cases h
    left
    refine ⟨rfl, rfl, ?_⟩
    simp only [Bool.or_eq_true, decide_eq_true_eq] at hc
    rcases hc with (h | h) | h
    · exact .inl h
    · exact .inr (.inl h)
    · exact .inr (.inr h)
  next hc =>
    simp only [Bool.or_eq_true, decide_eq_true_eq, not_or] at hc
    have he : p.error = none := by
      cases hp : p.error with
      | none => rfl
      | some e => simp [hp] at hc
    split at h
    next e st hs => cases h; right; left; exact ⟨e, st, rfl, rfl, hs, he, hc.2⟩
    next => cases h
    next => cases h
    next e h1 h2 hs =>
      cases h; right; right
      exact ⟨e, rfl, rfl, hs, he, by rintro rfl; exact h1 rfl, by rintro rfl; exact h2 rfl⟩

theorem parse_event {S : TokSrc σ} {n : Int} {fuel : Nat} {p : Parser σ} {e : Event} {st : PS σ}
    (hc : (p.st.ended || p.error.isSome || p.st.state = .done) = false) (h : stateMachine S n fuel p.st = .ok (e, st)) :
    parse S n fuel p = .ok (.event e, { p with st := st }) := by
  unfold parse
  rw [h, hc]
  rfl

theorem parse_failed {S : TokSrc σ} {n : Int} {fuel : Nat} {p : Parser σ} {a : Option String} {b : Mark} {c : String} {d : Mark}
    (hc : (p.st.ended || p.error.isSome || p.st.state = .done) = false)
    (h : stateMachine S n fuel p.st = .error (.parser a b c d)) :
    parse S n fuel p = .ok (.failed, { p with error := some (.parser a b c d) }) := by
  unfold parse
  rw [h, hc]
  rfl

theorem init_inv (x : σ) : PInv ({ src := x } : PS σ) .start := ⟨.start, rfl, by simp [PState.isFirst]⟩

theorem init_tinv (S : TokSrc σ) (x : σ) : TInv S x ({ src := x } : PS σ) [] :=
  ⟨[], {}, rfl, ⟨.nil x, rfl⟩, by simp [PState.inDoc], fun _ => ⟨rfl, rfl, .inr ⟨rfl, rfl⟩⟩, fun _ => rfl⟩

/-- All calls: the events are a run of the automaton and show what the walk over the consumed tokens saw. -/
theorem parseN_inv {S : TokSrc σ} (hS : S.Safe) {n : Int} {fuel k : Nat} {x : σ} {p p' : Parser σ} {os : List POut} {c : Cfg}
    {evs : List EvData} (h1 : PInv p.st c) (h2 : TInv S x p.st evs) (h : parseN S n fuel k p = .ok (os, p')) :
    ∃ c', c.run (events os) = some c' ∧ PInv p'.st c' ∧ TInv S x p'.st (evs ++ events os) := by
  induction k generalizing p os c evs with
  | zero => cases h; exact ⟨c, rfl, h1, by simpa [events] using h2⟩
  | succ k ih =>
    simp only [parseN] at h
    cases hp : parse S n fuel p with
    | error e => rw [hp] at h; cases h
    | ok r =>
      obtain ⟨o, q⟩ := r
      rw [hp] at h
      simp only at h
      cases hq : parseN S n fuel k q with
      | error e => rw [hq] at h; cases h
      | ok r =>
        obtain ⟨os', p2⟩ := r
        rw [hq] at h
        cases h
        rcases parse_cases hp with ⟨rfl, rfl, _⟩ | ⟨e, st, rfl, rfl, hs, _, hd⟩ | ⟨e, rfl, rfl, _⟩
        · simpa only [events] using ih h1 h2 hq
        · obtain ⟨c1, hc1, hi1⟩ := wp_ok (wp_stateMachine hS n fuel h1 hd) hs
          have ht1 := wp_ok (Q := fun e s' => TInv S x s' (evs ++ [e.data])) (tp_stateMachine (n := n) fuel h2 h1) hs
          obtain ⟨c2, hc2, hi2, ht2⟩ := ih (p := { p with st := st }) hi1 ht1 hq
          refine ⟨c2, ?_, hi2, by simpa [events] using ht2⟩
          simp only [events, Cfg.run, hc1, hc2]
        · simpa only [events] using ih (p := { p with error := some e }) h1 h2 hq

/-- C25. For every token source and every number of calls, the events returned are a prefix of a word of the event
grammar; if STREAM-END was returned, they are such a word. -/
theorem C25_events_obey_grammar {S : TokSrc σ} (hS : S.Safe) (n : Int) (fuel k : Nat) (x : σ) {os : List POut} {p : Parser σ}
    (h : parseN S n fuel k (Parser.init x) = .ok (os, p)) :
    (∃ w, GStream w ∧ events os <+: w) ∧ (.streamEnd ∈ events os → GStream (events os)) := by
  obtain ⟨c, hc, _, _⟩ := parseN_inv hS (p := Parser.init x) (init_inv x) (init_tinv S x) h
  refine ⟨(run_some_iff _).mp ⟨c, hc⟩, fun hse => ?_⟩
  rw [← run_ended_iff, hc]
  obtain ⟨a, b, hab⟩ := List.append_of_mem hse
  rw [hab, Cfg.run_append] at hc
  cases ha : Cfg.start.run a with
  | none => rw [ha] at hc; cases hc
  | some d =>
    rw [ha] at hc
    simp only [Option.bind_some, Cfg.run] at hc
    cases hd : d.step .streamEnd with
    | none => rw [hd] at hc; cases hc
    | some d' =>
      rw [hd] at hc
      have hd' : d' = .ended := by
        cases d with
        | docs => cases hd; rfl
        | start => cases hd
        | ended => cases hd
        | doc fs => cases fs <;> cases hd
      subst hd'
      cases b with
      | nil => cases hc; rfl
      | cons e b => simp [Cfg.run, Cfg.step] at hc

/-- C26. Whatever the tokens are, no call runs into undefined behaviour (no pop of an empty stack, no missing token). -/
theorem C26_no_underflow {S : TokSrc σ} (hS : S.Safe) (n : Int) (fuel k : Nat) (x : σ) :
    parseN S n fuel k (Parser.init x) ≠ .error .ub := by
  have main : ∀ (k : Nat) (p : Parser σ) (c : Cfg), PInv p.st c → parseN S n fuel k p ≠ .error .ub := by
    intro k
    induction k with
    | zero => intro p c _ h; cases h
    | succ k ih =>
      intro p c hi h
      simp only [parseN] at h
      cases hp : parse S n fuel p with
      | error e =>
        rw [hp] at h
        simp only [Except.error.injEq] at h
        subst h
        unfold parse at hp
        split at hp
        · cases hp
        next hc =>
          simp only [Bool.or_eq_true, decide_eq_true_eq, not_or] at hc
          split at hp
          · cases hp
          next hs => exact wp_error (wp_stateMachine hS n fuel hi hc.2) hs rfl
          · cases hp
          · cases hp
      | ok r =>
        obtain ⟨o, q⟩ := r
        rw [hp] at h
        simp only at h
        have hq : ∃ c', PInv q.st c' := by
          rcases parse_cases hp with ⟨rfl, rfl, _⟩ | ⟨e, st, rfl, rfl, hs, _, hd⟩ | ⟨e, rfl, rfl, _⟩
          · exact ⟨c, hi⟩
          · obtain ⟨c1, _, hi1⟩ := wp_ok (wp_stateMachine hS n fuel hi hd) hs; exact ⟨c1, hi1⟩
          · exact ⟨c, hi⟩
        obtain ⟨c', hc'⟩ := hq
        cases hq2 : parseN S n fuel k q with
        | error e =>
          rw [hq2] at h
          simp only [Except.error.injEq] at h
          subst h
          exact ih q c' hc' hq2
        | ok r => rw [hq2] at h; cases h
  exact main k _ .start (init_inv x)

/-- C26. When the stream has ended both stacks are empty. -/
theorem C26_stacks_empty_at_end {S : TokSrc σ} (hS : S.Safe) (n : Int) (fuel k : Nat) (x : σ) {os : List POut} {p : Parser σ}
    (h : parseN S n fuel k (Parser.init x) = .ok (os, p)) (hend : .streamEnd ∈ events os) :
    p.st.states = [] ∧ p.st.marks = [] ∧ p.st.state = .done := by
  obtain ⟨c, hc, hi, _⟩ := parseN_inv hS (p := Parser.init x) (init_inv x) (init_tinv S x) h
  have := (C25_events_obey_grammar hS n fuel k x h).2 hend
  rw [← run_ended_iff, hc] at this
  cases this
  have hr := hi.rel
  generalize hs : p.st.state = st at hr
  generalize hK : p.st.states = K at hr
  cases hr with
  | done => exact ⟨rfl, by have := hi.marks; rw [hs, hK] at this; exact List.length_eq_zero_iff.mp this, rfl⟩

/-- C27. A call that fails records an error, and every later call returns an empty event and leaves the parser object,
including the recorded error, as it is. -/
theorem C27_errors_are_final (S : TokSrc σ) (n : Int) (fuel : Nat) {p p' : Parser σ}
    (h : parse S n fuel p = .ok (.failed, p')) :
    (∃ e, p'.error = some e ∧ stateMachine S n fuel p.st = .error e) ∧
      ∀ k, parseN S n fuel k p' = .ok (List.replicate k .noEvent, p') := by
  rcases parse_cases h with ⟨h1, _⟩ | ⟨e, st, h1, _⟩ | ⟨e, _, rfl, hs, _⟩
  · cases h1
  · cases h1
  · refine ⟨⟨e, rfl, hs⟩, fun k => ?_⟩
    have one : parse S n fuel { p with error := some e } = .ok (.noEvent, { p with error := some e }) := by
      unfold parse; simp
    induction k with
    | zero => rfl
    | succ k ih => simp only [parseN, one, ih, List.replicate_succ]

/-- C28, C29. Take any token source, any number of calls. The tokens consumed pass the walk of `Spec/Tags.lean`, and the
walk sees exactly what the events show: each explicit DOCUMENT-START carries the directives written before it, in order;
each tag is the expansion of the written handle and suffix by the directives of its own document. A second `%YAML`, an
unknown version, a repeated handle or an undeclared handle is never consumed by a successful call. -/
theorem C28_C29_directives_and_tags {S : TokSrc σ} (hS : S.Safe) (n : Int) (fuel k : Nat) (x : σ) {os : List POut}
    {p : Parser σ} (h : parseN S n fuel k (Parser.init x) = .ok (os, p)) :
    ∃ consumed w, Feeds S x (consumed ++ p.st.avail.toList) p.st.src ∧
      ({} : Walk).run (consumed.map Token.data) = some w ∧ w.items = (events os).flatMap itemOf := by
  obtain ⟨c, hc, hi, cs, w, hw, hm, _⟩ := parseN_inv hS (p := Parser.init x) (init_inv x) (init_tinv S x) h
  exact ⟨cs, w, hm.fed, hm.run, by simpa using hw⟩

/-- C28. With the table the parser keeps for a document, looking up a tag fails exactly if its handle is undeclared, and
otherwise gives the specified expansion. -/
theorem C28_lookup (declared : List TagDir) (p : Props) (handle suffix : Text) (m : Mark) (hp : p.tag = some (handle, suffix, m)) :
    resolveTag (table declared) p =
      match expand declared handle suffix with
      | some t => .ok (some t)
      | none => .error (.parser (some "while parsing a node") p.start "found undefined tag handle" m) := by
  unfold resolveTag expand
  rw [hp]
  simp only
  by_cases h0 : handle = []
  · simp [h0]
  · simp only [if_neg h0]
    rw [find_table]
    cases (declared ++ predeclared).find? (fun d => d.handle == handle) <;> rfl

/-! ### C29: a list of directives is accepted or rejected as a whole -/

/-- A directive token. -/
def TokData.isDirective : TokData → Bool
  | .versionDirective _ | .tagDirective _ => true
  | _ => false

/-- The messages for bad directives. -/
def directiveProblem (s : String) : Prop :=
  s = "found duplicate %YAML directive" ∨ s = "found incompatible YAML document" ∨ s = "found duplicate %TAG directive"

theorem listSrc_cons (e : Fail) (t : Token) (r : List Token) : (listSrc e).next (t :: r) = .ok (t, r) := rfl

theorem directivesLoop_list (e0 : Fail) (ds : List Token) (t : Token) (rest : List Token) (fuel : Nat)
    (hd : ∀ d ∈ ds, d.data.isDirective = true) (ht : t.data.isDirective = false) (hf : ds.length < fuel)
    (s : PS (List Token)) (w : Walk) (hs : s.avail = none) (hsrc : s.src = ds ++ t :: rest) (hw : w.opened = false)
    (htg : s.tags = w.tags) :
    match w.run (ds.map Token.data) with
    | some w' => w'.opened = false ∧ w'.items = w.items ∧ ∃ b, directivesLoop (listSrc e0) fuel w.version w.tags s =
        .ok ((w'.version, w'.tags), { s with src := rest, avail := some t, ended := b, tags := w'.tags })
    | none => ∃ pr m, directiveProblem pr ∧
        directivesLoop (listSrc e0) fuel w.version w.tags s = .error (.parser none {} pr m) := by
  induction ds generalizing fuel s w with
  | nil =>
    simp only [List.map_nil, Walk.run]
    cases fuel with
    | zero => cases hf
    | succ fuel =>
      refine ⟨hw, trivial, s.ended, ?_⟩
      unfold directivesLoop
      simp only [bind, StateT.bind, Except.bind, peek, hs, hsrc, List.nil_append, listSrc_cons]
      cases hdt : t.data <;> rw [hdt] at ht <;> first | (cases ht; done) | (simp only [pure, StateT.pure, Except.pure, htg])
  | cons d ds ih =>
    simp only [List.map_cons, Walk.run]
    cases fuel with
    | zero => cases hf
    | succ fuel =>
      have hdd := hd d (by simp)
      have hfr : w.fresh = w := by unfold Walk.fresh; simp [hw]
      unfold directivesLoop
      simp only [bind, StateT.bind, Except.bind, peek, hs, hsrc, List.cons_append]
      cases hdt : d.data <;> rw [hdt] at hdd <;> first | (cases hdd; done) | skip
      next v =>
        simp only [Walk.step, hfr, listSrc_cons, hdt]
        by_cases h1 : w.version.isSome = true
        · simp only [h1, if_true, Option.bind_none]
          exact ⟨_, _, .inl rfl, rfl⟩
        · simp only [h1, Bool.false_eq_true, if_false]
          by_cases h2 : v.major ≠ 1 ∨ (v.minor ≠ 1 ∧ v.minor ≠ 2)
          · have h3 : ¬ (v = ⟨1, 1⟩ ∨ v = ⟨1, 2⟩) := by
              rintro (rfl | rfl) <;> simp at h2
            simp only [if_pos h2, if_neg h3, Option.bind_none]
            exact ⟨_, _, .inr (.inl rfl), rfl⟩
          · have h3 : v = ⟨1, 1⟩ ∨ v = ⟨1, 2⟩ := by
              obtain ⟨a, b⟩ := v
              simp only [Version.mk.injEq]
              simp only at h2
              omega
            simp only [if_neg h2, if_pos h3, Option.bind_some, skipTok, bind, StateT.bind, Except.bind]
            have := ih fuel (fun d' hd' => hd d' (List.mem_cons_of_mem _ hd')) (by simpa using hf)
              { s with src := ds ++ t :: rest, avail := none, ended := (d.data == .streamEnd) } { w with version := some v } rfl rfl hw htg
            exact this
      next dt =>
        simp only [Walk.step, hfr, listSrc_cons, hdt]
        by_cases h1 : ∃ e ∈ w.tags, e.handle = dt.handle
        · have h2 : (w.tags.any fun e => e.handle == dt.handle) = true := by
            obtain ⟨e, he1, he2⟩ := h1
            exact List.any_eq_true.mpr ⟨e, he1, by simp [he2]⟩
          simp only [if_pos h1, Option.bind_none, appendTagM, bind, StateT.bind, Except.bind, getTags, htg, appendTag, h2, if_true,
            Bool.false_eq_true, if_false, pfail]
          exact ⟨_, _, .inr (.inr rfl), rfl⟩
        · have h2 : (w.tags.any fun e => e.handle == dt.handle) = false := by
            rw [Bool.eq_false_iff]
            intro h2
            obtain ⟨e, he1, he2⟩ := List.any_eq_true.mp h2
            exact h1 ⟨e, he1, by simpa using he2⟩
          simp only [if_neg h1, Option.bind_some, appendTagM, bind, StateT.bind, Except.bind, getTags, htg, appendTag, h2,
            Bool.false_eq_true, if_false, setTags, skipTok]
          have := ih fuel (fun d' hd' => hd d' (List.mem_cons_of_mem _ hd')) (by simpa using hf)
            { s with src := ds ++ t :: rest, avail := none, ended := (d.data == .streamEnd), tags := w.tags ++ [dt] } { w with tags := w.tags ++ [dt] } rfl rfl hw rfl
          exact this

/-- C29. Any list of directives followed by `---`, between two documents: if it has at most one `%YAML`, of version 1.1
or 1.2, and no handle twice (that is, if the walk accepts it), the call returns a DOCUMENT-START event with exactly these
directives in order; otherwise the call fails with one of the three messages. -/
theorem C29_directives_decide (e0 : Fail) (n : Int) (ds : List Token) (t : Token) (rest : List Token) (fuel : Nat)
    (hd : ∀ d ∈ ds, d.data.isDirective = true) (ht : t.data = .documentStart) (hf : ds.length < fuel)
    (p : Parser (List Token)) (hp : p.st = { src := ds ++ t :: rest, state := .documentStart }) (he : p.error = none) :
    match ({} : Walk).run (ds.map Token.data) with
    | some w => ∃ p' ev, parse (listSrc e0) n fuel p = .ok (.event ev, p') ∧ ev.data = .documentStart w.version w.tags false
    | none => ∃ p' pr m, directiveProblem pr ∧ parse (listSrc e0) n fuel p = .ok (.failed, p') ∧
        p'.error = some (.parser none {} pr m) := by
  -- the first token that is not skipped
  obtain ⟨t0, r0, hcons⟩ : ∃ t0 r0, ds ++ t :: rest = t0 :: r0 := by
    cases ds with
    | nil => exact ⟨t, rest, rfl⟩
    | cons d ds => exact ⟨d, ds ++ t :: rest, rfl⟩
  have ht0 : t0.data ≠ .documentEnd ∧ t0.data ≠ .streamEnd := by
    cases ds with
    | nil => cases hcons; rw [ht]; exact ⟨by decide, by decide⟩
    | cons d ds =>
      cases hcons
      have := hd t0 (by simp)
      constructor <;> intro hx <;> rw [hx] at this <;> cases this
  obtain ⟨fuel, rfl⟩ : ∃ m, fuel = m + 1 := ⟨fuel - 1, by omega⟩
  -- the loop, after the first token has been peeked
  have hloop : directivesLoop (listSrc e0) (fuel + 1) none [] { src := r0, avail := some t0, state := .documentStart } =
      directivesLoop (listSrc e0) (fuel + 1) none [] { src := t0 :: r0, state := .documentStart } := by
    unfold directivesLoop
    simp only [bind, StateT.bind, Except.bind, peek, listSrc_cons]
  have hskip : skipDocumentEnds (listSrc e0) (fuel + 1) { src := t0 :: r0, state := .documentStart } =
      .ok ((), { src := r0, avail := some t0, state := .documentStart }) := by
    unfold skipDocumentEnds
    simp only [bind, StateT.bind, Except.bind, peek, listSrc_cons]
    cases hx : t0.data <;> first | rfl | exact absurd hx ht0.1
  have hmain := directivesLoop_list e0 ds t rest (fuel + 1) hd (by rw [ht]; rfl) hf
    { src := ds ++ t :: rest, state := .documentStart } {} rfl rfl rfl rfl
  rw [hcons] at hmain
  simp only at hmain
  have hsm : stateMachine (listSrc e0) n (fuel + 1) p.st =
      parseDocumentStart (listSrc e0) (fuel + 1) false { src := t0 :: r0, state := .documentStart } := by
    rw [hp, hcons]; rfl
  have hcond : (p.st.ended || p.error.isSome || p.st.state = .done) = false := by simp [hp, he]
  have hstart : parseDocumentStart (listSrc e0) (fuel + 1) false { src := t0 :: r0, state := .documentStart } =
      (do
        let (version, tags) ← processDirectives (listSrc e0) (fuel + 1)
        let token ← peek (listSrc e0)
        if token.data = .documentStart then
          pushState .documentEnd
          setState .documentContent
          skipTok
          pure { data := .documentStart version tags false, start := t0.start, stop := token.stop }
        else perr "did not find expected <document start>" token.start : PM (List Token) Event)
      { src := r0, avail := some t0, state := .documentStart } := by
    unfold parseDocumentStart
    simp only [Bool.not_false, if_true, Bool.false_and, Bool.false_eq_true, if_false]
    conv => lhs; simp only [bind, StateT.bind, Except.bind, hskip]
    simp only [peek, ne_eq, ht0.2, not_false_eq_true, if_true]
    rfl
  split at hmain
  next w hw =>
    obtain ⟨_, _, b, hl⟩ := hmain
    have hpd : processDirectives (listSrc e0) (fuel + 1) { src := r0, avail := some t0, state := .documentStart } =
        .ok ((w.version, w.tags), { src := rest, avail := some t, ended := b, state := .documentStart, tags := table w.tags }) := by
      unfold processDirectives
      have hd2 := appendDefaults w.tags t.start t.start
      simp only [bind, StateT.bind, Except.bind, hloop, hl, peek, appendTagM, getTags]
      cases ha : appendTag ⟨lit ['!'], lit ['!']⟩ true t.start w.tags with
      | error e => rw [ha] at hd2; cases hd2
      | ok ts1 =>
        rw [ha] at hd2
        simp only [Except.bind] at hd2
        simp only [setTags, hd2]
        rfl
    have hres := hstart
    simp only [bind, StateT.bind, Except.bind, hpd, peek, ht, if_true, pushState, setState, skipTok, pure, StateT.pure,
      Except.pure] at hres
    rw [← hsm] at hres
    exact ⟨_, _, parse_event hcond hres, rfl⟩
  next hw =>
    obtain ⟨pr, m, hpr, hl⟩ := hmain
    have hpd : processDirectives (listSrc e0) (fuel + 1) { src := r0, avail := some t0, state := .documentStart } =
        .error (.parser none {} pr m) := by
      unfold processDirectives
      simp only [bind, StateT.bind, Except.bind, hloop, hl]
    have hres := hstart
    simp only [bind, StateT.bind, Except.bind, hpd] at hres
    rw [← hsm] at hres
    exact ⟨_, pr, m, hpr, parse_failed hcond hres, rfl⟩

/-! ### C30 -/

/-- Events that open a collection. -/
def EvData.opens : EvData → Bool
  | .sequenceStart .. | .mappingStart .. => true
  | _ => false

/-- The nesting check was passed, or the collection is of the two kinds that are not checked. -/
def Checked (S : TokSrc σ) (n : Int) (e : Event) (s : PS σ) : Prop :=
  e.data.opens = true → ((S.depth s.src : Int) < n ∧ s.avail.isSome = true) ∨ s.state = .indentlessSequenceEntry ∨
    s.state = .flowSequenceEntryMappingKey

section c30
variable {S : TokSrc σ} {n : Int} {s : PS σ}

theorem any_peek {Q : Token → PS σ → Prop} (h : ∀ t s', Q t s') : wp (peek S) Q Any s := by
  unfold wp; split
  · exact h _ _
  · trivial

theorem any_unit {m : PM σ Unit} {Q : Unit → PS σ → Prop} (h : ∀ s', Q () s') : wp m Q Any s := by
  unfold wp; split
  · exact h _
  · trivial

theorem any_any {α : Type} {m : PM σ α} {Q : α → PS σ → Prop} (h : ∀ a s', Q a s') : wp m Q Any s := by
  unfold wp; split
  · exact h _ _
  · trivial

theorem any_fail {α : Type} {e : Fail} {Q : α → PS σ → Prop} : wp (pfail e : PM σ α) Q Any s := trivial

theorem any_empty {m : Mark} : wp (emptyScalar m) (Checked S n) Any s := by
  intro h; cases h

theorem checked_pure {e : Event} (h : e.data.opens = false) : wp (pure e : PM σ Event) (Checked S n) Any s := by
  intro h'; rw [h] at h'; cases h'

theorem any_level {e : Event} {a b : Mark} {st : PState} (ha : s.avail.isSome = true) :
    wp (do checkLevel S n a b; setState st; pure e : PM σ Event) (Checked S n) Any s := by
  unfold wp checkLevel
  simp only [bind, StateT.bind, Except.bind]
  by_cases h : (S.depth s.src : Int) < n
  · rw [if_pos h]; intro _; exact .inl ⟨h, ha⟩
  · rw [if_neg h]; trivial

theorem c30_nodeContent {b i : Bool} {p : Props} {tag : Option Text} {t : Token} (ha : s.avail.isSome = true) :
    wp (nodeContent S n b i p tag t) (Checked S n) Any s := by
  unfold nodeContent
  dsimp only
  split
  · intro _; exact .inr (.inl rfl)
  · split
    · rw [wp_bind]; apply any_unit; intro s'
      rw [wp_bind]; apply any_unit; intro s'
      exact checked_pure rfl
    · exact any_level ha
    · exact any_level ha
    · split
      · exact any_level ha
      · split
        · exact any_level ha
        · split
          · rw [wp_bind]; apply any_unit; intro s'
            exact checked_pure rfl
          · exact any_fail

theorem some_peek {Q : Token → PS σ → Prop} (h : ∀ t s', s'.avail.isSome = true → Q t s') : wp (peek S) Q Any s := by
  unfold wp peek
  cases ha : s.avail with
  | some t => exact h t s (by rw [ha]; rfl)
  | none =>
    cases S.next s.src with
    | error e => trivial
    | ok r => exact h _ _ rfl

theorem some_props {t : Token} {Q : Props × Token → PS σ → Prop} (ha : s.avail.isSome = true) (h : ∀ r s', s'.avail.isSome = true → Q r s') :
    wp (parseProps S t) Q Any s := by
  unfold parseProps
  split
  · rw [wp_bind]; apply any_unit; intro s'
    rw [wp_bind]
    refine some_peek fun t2 s' ha => ?_
    split
    · rw [wp_bind]; apply any_unit; intro s'
      rw [wp_bind]
      exact some_peek fun t2 s' ha => h _ _ ha
    · exact h _ _ ha
  · rw [wp_bind]; apply any_unit; intro s'
    rw [wp_bind]
    refine some_peek fun t2 s' ha => ?_
    split
    · rw [wp_bind]; apply any_unit; intro s'
      rw [wp_bind]
      exact some_peek fun t2 s' ha => h _ _ ha
    · exact h _ _ ha
  · exact h _ _ ha

theorem c30_node {b i : Bool} : wp (parseNode S n b i) (Checked S n) Any s := by
  unfold parseNode
  rw [wp_bind]
  refine some_peek fun t s' ha => ?_
  split
  · rw [wp_bind]; apply any_unit; intro s'
    rw [wp_bind]; apply any_unit; intro s'
    exact checked_pure rfl
  · rw [wp_bind]
    refine some_props ha fun _ s' ha => ?_
    rw [wp_bind]
    unfold wp resolveTagM getTags
    simp only [bind, StateT.bind, Except.bind]
    cases resolveTag s'.tags _ with
    | error e => trivial
    | ok t => exact c30_nodeContent ha

theorem c30_endFlow {d : EvData} {t : Token} (h : d.opens = false) : wp (endFlow d t) (Checked S n) Any s := by
  unfold endFlow
  rw [wp_bind]; apply any_unit; intro s'
  rw [wp_bind]; apply any_any; intro _ s'
  rw [wp_bind]; apply any_unit; intro s'
  exact checked_pure h

/-- Take the first action of the program without looking at what it does. -/
macro "skip1" : tactic => `(tactic| (rw [wp_bind]; apply any_any; intro _ _))

theorem c30_stateMachine (fuel : Nat) : wp (stateMachine S n fuel) (Checked S n) Any s := by
  have entry : ∀ {b : Bool} {s : PS σ}, wp (parseBlockSequenceEntry S n b) (Checked S n) Any s := by
    intro b s
    unfold parseBlockSequenceEntry
    skip1; skip1
    split
    · skip1; skip1
      split
      · skip1; exact c30_node
      · skip1; exact any_empty
    · exact c30_endFlow rfl
    · skip1; exact any_fail
  have bkey : ∀ {b : Bool} {s : PS σ}, wp (parseBlockMappingKey S n b) (Checked S n) Any s := by
    intro b s
    unfold parseBlockMappingKey
    skip1; skip1
    split
    · skip1; skip1
      split
      · skip1; exact c30_node
      · skip1; exact any_empty
    · exact c30_endFlow rfl
    · skip1; exact any_fail
  have fentry : ∀ {b : Bool} {s : PS σ}, wp (parseFlowSequenceEntry S n b) (Checked S n) Any s := by
    intro b s
    unfold parseFlowSequenceEntry
    skip1; skip1
    split
    · skip1
      split
      · rw [wp_bind, wp_setState, wp_bind]
        unfold wp skipTok
        split
        next h =>
          split at h
          · cases h
          · cases h
            intro _
            exact .inr (.inr rfl)
        next => trivial
      · split
        · skip1; exact c30_node
        · exact c30_endFlow rfl
    · exact c30_endFlow rfl
  have fkey : ∀ {b : Bool} {s : PS σ}, wp (parseFlowMappingKey S n b) (Checked S n) Any s := by
    intro b s
    unfold parseFlowMappingKey
    skip1; skip1
    split
    · skip1
      split
      · skip1; skip1
        split
        · skip1; exact c30_node
        · skip1; exact any_empty
      · split
        · skip1; exact c30_node
        · exact c30_endFlow rfl
    · exact c30_endFlow rfl
  have fval : ∀ {b : Bool} {s : PS σ}, wp (parseFlowMappingValue S n b) (Checked S n) Any s := by
    intro b s
    unfold parseFlowMappingValue
    skip1
    split
    · skip1; exact any_empty
    · split
      · skip1; skip1
        split
        · skip1; exact c30_node
        · skip1; exact any_empty
      · skip1; exact any_empty
  have dstart : ∀ {b : Bool} {s : PS σ}, wp (parseDocumentStart S fuel b) (Checked S n) Any s := by
    have tail : ∀ {b : Bool} {s : PS σ}, wp (do
      let token ← peek S
      if b && !token.data.startsDocument then
        let _ ← processDirectives S fuel
        pushState .documentEnd
        setState .blockNode
        pure { data := .documentStart none [] true, start := token.start, stop := token.start }
      else if token.data ≠ .streamEnd then
        let start := token.start
        let (version, tags) ← processDirectives S fuel
        let token ← peek S
        if token.data = .documentStart then
          pushState .documentEnd
          setState .documentContent
          skipTok
          pure { data := .documentStart version tags false, start := start, stop := token.stop }
        else perr "did not find expected <document start>" token.start
      else
        setState .done
        skipTok
        pure { data := .streamEnd, start := token.start, stop := token.stop } : PM σ Event) (Checked S n) Any s := by
      intro b s
      skip1
      split
      · skip1; skip1; skip1; exact checked_pure rfl
      · split
        · skip1; skip1
          split
          · skip1; skip1; skip1; exact checked_pure rfl
          · exact any_fail
        · skip1; skip1; exact checked_pure rfl
    intro b s
    unfold parseDocumentStart
    cases b
    · simp only [Bool.not_false, if_true]
      skip1
      exact tail
    · exact tail
  unfold wp stateMachine
  cases s.state with
  | streamStart =>
    show wp (parseStreamStart S) (Checked S n) Any s
    unfold parseStreamStart
    skip1
    split
    · skip1; skip1; exact checked_pure rfl
    · exact any_fail
  | implicitDocumentStart => exact dstart
  | documentStart => exact dstart
  | documentContent =>
    show wp (parseDocumentContent S n) (Checked S n) Any s
    unfold parseDocumentContent
    skip1
    split
    · skip1; exact any_empty
    · exact c30_node
  | documentEnd =>
    show wp (parseDocumentEnd S) (Checked S n) Any s
    unfold parseDocumentEnd
    skip1
    split
    · skip1; skip1; skip1; exact checked_pure rfl
    · skip1; skip1; exact checked_pure rfl
  | blockNode => exact c30_node
  | blockSequenceFirstEntry => exact entry
  | blockSequenceEntry => exact entry
  | indentlessSequenceEntry =>
    show wp (parseIndentlessSequenceEntry S n) (Checked S n) Any s
    unfold parseIndentlessSequenceEntry
    skip1
    split
    · skip1; skip1
      split
      · skip1; exact c30_node
      · skip1; exact any_empty
    · skip1; exact checked_pure rfl
  | blockMappingFirstKey => exact bkey
  | blockMappingKey => exact bkey
  | blockMappingValue =>
    show wp (parseBlockMappingValue S n) (Checked S n) Any s
    unfold parseBlockMappingValue
    skip1
    split
    · skip1; skip1
      split
      · skip1; exact c30_node
      · skip1; exact any_empty
    · skip1; exact any_empty
  | flowSequenceFirstEntry => exact fentry
  | flowSequenceEntry => exact fentry
  | flowSequenceEntryMappingKey =>
    show wp (parseFlowSequenceEntryMappingKey S n) (Checked S n) Any s
    unfold parseFlowSequenceEntryMappingKey
    skip1
    split
    · skip1; exact c30_node
    · split
      · skip1; exact any_empty
      · skip1; skip1; exact any_empty
  | flowSequenceEntryMappingValue =>
    show wp (parseFlowSequenceEntryMappingValue S n) (Checked S n) Any s
    unfold parseFlowSequenceEntryMappingValue
    skip1
    split
    · skip1; skip1
      split
      · skip1; exact c30_node
      · skip1; exact any_empty
    · skip1; exact any_empty
  | flowSequenceEntryMappingEnd =>
    show wp (parseFlowSequenceEntryMappingEnd S) (Checked S n) Any s
    unfold parseFlowSequenceEntryMappingEnd
    skip1; skip1; exact checked_pure rfl
  | flowMappingFirstKey => exact fkey
  | flowMappingKey => exact fkey
  | flowMappingValue => exact fval
  | flowMappingEmptyValue => exact fval
  | done => trivial

end c30

/-- C30 (partial). Whenever a call returns an event opening a collection, the scanner's nesting depth at that moment, with the
token that opens the collection being the last one that was fetched, was below the configured limit, unless the collection is an
indentless sequence or the single-pair mapping of a flow sequence (`[a: b]`), which the code does not check. Full property: the
number of open collections is bounded by the limit plus a constant. `C30_violated` and `C30_bounded_partial` say how much of that holds. -/
theorem C30_nesting_checked_partial {S : TokSrc σ} {n : Int} {fuel : Nat} {p p' : Parser σ} {e : Event}
    (h : parse S n fuel p = .ok (.event e, p')) (ho : e.data.opens = true) :
    ((S.depth p'.st.src : Int) < n ∧ p'.st.avail.isSome = true) ∨ p'.st.state = .indentlessSequenceEntry ∨
      p'.st.state = .flowSequenceEntryMappingKey := by
  rcases parse_cases h with ⟨h1, _⟩ | ⟨e', st, h1, rfl, hs, _⟩ | ⟨e', h1, _⟩
  · cases h1
  · cases h1
    exact wp_ok (c30_stateMachine (S := S) (n := n) fuel) hs ho
  · cases h1

/-! ### Concrete cases -/

/-- Token of the given kind. -/
def tk (d : TokData) : Token := { data := d }

/-- `%TAG !e! tag:e,` then a sequence with a tagged scalar and a mapping, then a second document. -/
def sampleTokens : List Token :=
  [tk (.streamStart .utf8), tk (.versionDirective ⟨1, 1⟩), tk (.tagDirective ⟨lit ['!','e','!'], lit ['x',':']⟩), tk .documentStart,
   tk .blockSequenceStart, tk .blockEntry, tk (.tag (lit ['!','e','!']) (lit ['f'])), tk (.scalar (lit ['a']) .plain),
   tk .blockEntry, tk .flowMappingStart, tk .key, tk (.scalar (lit ['k']) .plain), tk .value, tk (.scalar (lit ['v']) .plain),
   tk .flowMappingEnd, tk .blockEnd, tk .documentStart, tk (.scalar (lit ['z']) .plain), tk .streamEnd]

/-- Events, last result and recorded error of `k` calls on a token list. -/
def outcome (k : Nat) (toks : List Token) : Option (List EvData × Option POut × Option Fail) :=
  match parseN (listSrc .fuel) 1000 30 k (Parser.init toks) with
  | .ok (os, p) => some (events os, os.getLast?, p.error)
  | .error _ => none

theorem outcome_ok {k : Nat} {toks : List Token} {r} (h : outcome k toks = some r) :
    ∃ os p, parseN (listSrc .fuel) 1000 30 k (Parser.init toks) = .ok (os, p) ∧ events os = r.1 ∧ os.getLast? = r.2.1 ∧
      p.error = r.2.2 := by
  unfold outcome at h
  split at h
  next os p hp => cases h; exact ⟨os, p, hp, rfl, rfl, rfl⟩
  next => cases h

/-- The sample is parsed to the end, so the hypotheses of C25, C26 and C28 can be met with a nontrivial run. -/
example : outcome 14 sampleTokens = some
    ([.streamStart (some .utf8), .documentStart (some ⟨1, 1⟩) [⟨lit ['!','e','!'], lit ['x',':']⟩] false,
      .sequenceStart none none true .block, .scalar none (some (lit ['x',':','f'])) (lit ['a']) false false .plain,
      .mappingStart none none true .flow, .scalar none none (lit ['k']) true false .plain,
      .scalar none none (lit ['v']) true false .plain, .mappingEnd, .sequenceEnd, .documentEnd true,
      .documentStart none [] false, .scalar none none (lit ['z']) true false .plain, .documentEnd true, .streamEnd],
     some (.event { data := .streamEnd }), none) := by decide +kernel

/-- A source that fails with a scanner error at its end is safe. -/
example : (listSrc (.scanner "" {} "" {})).Safe := by
  intro x e h
  cases x with
  | nil => cases h; decide
  | cons t r => cases h

/-- An undeclared handle makes the call fail. -/
example : outcome 3
    [tk (.streamStart .utf8), tk (.tag (lit ['!','e','!']) (lit ['f'])), tk (.scalar (lit ['a']) .plain), tk .streamEnd] =
    some ([.streamStart (some .utf8), .documentStart none [] true], some .failed,
      some (.parser (some "while parsing a node") {} "found undefined tag handle" {})) := by decide +kernel

/-- Two directives with the same handle: the walk rejects, so `C29_directives_decide` gives a failure. -/
example : ({} : Walk).run [.tagDirective ⟨lit ['!'], lit ['a']⟩, .tagDirective ⟨lit ['!'], lit ['b']⟩] = none := by decide +kernel

/-- One version and two handles: accepted. -/
example : ({} : Walk).run [.tagDirective ⟨lit ['!'], lit ['a']⟩, .versionDirective ⟨1, 2⟩, .tagDirective ⟨lit ['!','!'], lit ['b']⟩] =
    some { version := some ⟨1, 2⟩, tags := [⟨lit ['!'], lit ['a']⟩, ⟨lit ['!','!'], lit ['b']⟩] } := by decide +kernel

/-! ### A production of the documented grammar that the parser rejects

parser.c:33 documents `flow_sequence_entry ::= flow_node | KEY flow_node? (VALUE flow_node?)?`. With an empty key the code
(parser.c:1063-1069) skips the VALUE or FLOW-ENTRY token that it still needs. -/

/-- `[ ? : x ]`: the tokens KEY VALUE SCALAR are derived from `flow_sequence_entry`, and the parser fails on them. -/
theorem empty_flow_key_is_rejected : ∃ os p, parseN (listSrc .fuel) 1000 30 8 (Parser.init
    [tk (.streamStart .utf8), tk .flowSequenceStart, tk .key, tk .value, tk (.scalar (lit ['x']) .plain), tk .flowSequenceEnd,
     tk .streamEnd]) = .ok (os, p) ∧ os.getLast? = some .failed ∧
    p.error = some (.parser (some "while parsing a flow sequence") {} "did not find expected ',' or ']'" {}) := by
  have h : outcome 8
    [tk (.streamStart .utf8), tk .flowSequenceStart, tk .key, tk .value, tk (.scalar (lit ['x']) .plain), tk .flowSequenceEnd,
     tk .streamEnd] = some ([.streamStart (some .utf8), .documentStart none [] true, .sequenceStart none none true .flow,
      .mappingStart none none true .flow, .scalar none none [] true false .plain, .scalar none none [] true false .plain,
      .mappingEnd], some .failed, some (.parser (some "while parsing a flow sequence") {} "did not find expected ',' or ']'" {})) := by
    decide +kernel
  obtain ⟨os, p, h1, _, h2, h3⟩ := outcome_ok h
  exact ⟨os, p, h1, h2, h3⟩

/-- With a key that is not empty the same entry is accepted: `[ ? k : x ]`. -/
example : (outcome 10
    [tk (.streamStart .utf8), tk .flowSequenceStart, tk .key, tk (.scalar (lit ['k']) .plain), tk .value, tk (.scalar (lit ['x']) .plain),
     tk .flowSequenceEnd, tk .streamEnd]).map (fun r => r.2.1) = some (some (.event { data := .streamEnd })) := by decide +kernel

end LibYaml
