import Verif.Props.Dumper

/-!
# Property C51: the life cycle of the dumper

Calls of `yaml_emitter_open`, `yaml_emitter_dump` and `yaml_emitter_close` in any order, for every emitter.
-/

namespace LibYaml

open Spec

variable {τ : Type}

/-- A call of the public dumper functions. -/
inductive DCall where
  | opens
  | dumps (d : Doc)
  | closes

/-- One call. -/
def DCall.run (emit : Event → τ → Bool × τ) (fuel : Nat) : DCall → Dumper τ → Except Fail (Bool × Dumper τ)
  | .opens, s => dOpen emit s
  | .dumps d, s => dump emit fuel d s
  | .closes, s => dClose emit s

/-- A sequence of calls with their results. Calls go on after failed ones. -/
def runCalls (emit : Event → τ → Bool × τ) (fuel : Nat) : List DCall → Dumper τ → Except Fail (List Bool × Dumper τ)
  | [], s => .ok ([], s)
  | c :: cs, s =>
    match c.run emit fuel s with
    | .error e => .error e
    | .ok (b, s) =>
      match runCalls emit fuel cs s with
      | .error e => .error e
      | .ok (bs, s) => .ok (b :: bs, s)

/-- The call meets the preconditions of the function in this phase. -/
def DCall.Allowed (fuel : Nat) (opened : Bool) : DCall → Prop
  | .opens => opened = false
  | .dumps d => GraphOk d.nodes ∧ d.nodes.length < fuel
  | .closes => opened = true

/-- The emitter together with a list of the events it has accepted. -/
def noting (emit : Event → τ → Bool × τ) (e : Event) (x : τ × List EvData) : Bool × (τ × List EvData) :=
  match emit e x.1 with
  | (true, o) => (true, o, x.2 ++ [e.data])
  | (false, o) => (false, o, x.2)

/-- Between two calls. -/
structure CallInv (s : Dumper (τ × List EvData)) : Prop where
  last : s.last = 0
  starts : s.out.2.countP (fun e => e matches .streamStart _) = if s.opened then 1 else 0
  ends : s.out.2.countP (fun e => e matches .streamEnd) = if s.closed then 1 else 0
  order : s.closed = true → s.opened = true

theorem feed_noting (emit : Event → τ → Bool × τ) (es : List EvData) (x : τ × List EvData) :
    ∃ es', es' <+: es ∧ (feedEvs (noting emit) es x).2.2 = x.2 ++ es' ∧
      ((feedEvs (noting emit) es x).1 = true → es' = es) := by
  induction es generalizing x with
  | nil => exact ⟨[], List.nil_prefix, by simp [feedEvs], fun _ => rfl⟩
  | cons e es ih =>
    simp only [feedEvs, noting]
    rcases emit { data := e } x.1 with ⟨b, o⟩
    cases b with
    | false => exact ⟨[], List.nil_prefix, by simp, fun h => nomatch h⟩
    | true =>
      obtain ⟨es', h1, h2, h3⟩ := ih (o, x.2 ++ [e])
      refine ⟨e :: es', List.cons_prefix_cons.mpr ⟨rfl, h1⟩, ?_, fun h => by rw [h3 h]⟩
      rw [h2]; simp

theorem grammar_no_stream {s : Sym} {w : List EvData} (h : G s w) : ∀ e ∈ w, (e matches .streamStart _) = false ∧ (e matches .streamEnd) = false := by
  induction h with
  | «alias» => simp
  | scalar => simp
  | seq _ _ _ _ _ ih =>
    intro e he
    simp only [List.cons_append, List.mem_cons, List.mem_append, List.not_mem_nil, or_false] at he
    rcases he with rfl | he | rfl
    · exact ⟨rfl, rfl⟩
    · exact ih e he
    · exact ⟨rfl, rfl⟩
  | map _ _ _ _ _ ih =>
    intro e he
    simp only [List.cons_append, List.mem_cons, List.mem_append, List.not_mem_nil, or_false] at he
    rcases he with rfl | he | rfl
    · exact ⟨rfl, rfl⟩
    · exact ih e he
    · exact ⟨rfl, rfl⟩
  | nodesNil => simp
  | nodesCons _ _ ih1 ih2 =>
    intro e he
    rcases List.mem_append.mp he with he | he
    · exact ih1 e he
    · exact ih2 e he
  | pairsNil => simp
  | pairsCons _ _ _ ih1 ih2 ih3 =>
    intro e he
    rcases List.mem_append.mp he with he | he
    · exact ih1 e he
    · rcases List.mem_append.mp he with he | he
      · exact ih2 e he
      · exact ih3 e he

theorem doc_no_stream {w : List EvData} (h : GDoc w) : ∀ e ∈ w, (e matches .streamStart _) = false ∧ (e matches .streamEnd) = false := by
  obtain ⟨v, ts, i, n, j, hn, rfl⟩ := h
  intro e he
  simp only [List.cons_append, List.mem_cons, List.mem_append, List.not_mem_nil, or_false] at he
  rcases he with rfl | he | rfl
  · exact ⟨rfl, rfl⟩
  · exact grammar_no_stream hn e he
  · exact ⟨rfl, rfl⟩

theorem open_between (emit : Event → τ → Bool × τ) (s : Dumper (τ × List EvData)) (h : CallInv s) (ho : s.opened = false) :
    ∃ b s', dOpen (noting emit) s = .ok (b, s') ∧ CallInv s' ∧ s'.opened = b ∧ s'.closed = false := by
  have hc : s.closed = false := by
    cases hc : s.closed with
    | false => rfl
    | true => rw [h.order hc] at ho; cases ho
  unfold dOpen noting
  simp only [ho, Bool.false_eq_true, if_false]
  rcases emit { data := .streamStart none } s.out.1 with ⟨b, o⟩
  have h1 := h.starts
  have h2 := h.ends
  rw [ho] at h1
  rw [hc] at h2
  simp only [Bool.false_eq_true, if_false] at h1 h2
  cases b with
  | false =>
    refine ⟨false, _, rfl, ⟨h.last, ?_, ?_, fun hx => ?_⟩, rfl, hc⟩
    · simp [h1]
    · simp [h2, hc]
    · rw [hc] at hx; cases hx
  | true =>
    refine ⟨true, _, rfl, ⟨h.last, ?_, ?_, fun _ => rfl⟩, rfl, hc⟩
    · simp [List.countP_append, h1]
    · simp [List.countP_append, h2, hc]

theorem close_between (emit : Event → τ → Bool × τ) (s : Dumper (τ × List EvData)) (h : CallInv s) (ho : s.opened = true) :
    ∃ b s', dClose (noting emit) s = .ok (b, s') ∧ CallInv s' ∧ s'.opened = true ∧ s'.closed = b ∧
      (s.closed = true → b = true ∧ s' = s) := by
  unfold dClose noting
  simp only [ho, not_true_eq_false, if_false]
  cases hc : s.closed with
  | true => exact ⟨true, s, rfl, h, ho, hc, fun _ => ⟨rfl, rfl⟩⟩
  | false =>
    simp only [Bool.false_eq_true, if_false]
    have h1 := h.starts
    have h2 := h.ends
    rw [ho] at h1
    rw [hc] at h2
    simp only [Bool.false_eq_true, if_false, if_true] at h1 h2
    rcases emit { data := .streamEnd } s.out.1 with ⟨b, o⟩
    cases b with
    | false =>
      refine ⟨false, _, rfl, ⟨h.last, ?_, ?_, fun _ => rfl⟩, rfl, rfl, fun h => nomatch h⟩
      · simp [h1]
      · simp [h2]
    | true =>
      refine ⟨true, _, rfl, ⟨h.last, ?_, ?_, fun _ => rfl⟩, rfl, rfl, fun h => nomatch h⟩
      · simp [List.countP_append, h1]
      · simp [List.countP_append, h2]

theorem nodes_between (emit : Event → τ → Bool × τ) (fuel : Nat) (d : Doc) (s : Dumper (τ × List EvData)) (h : CallInv s)
    (ho : s.opened = true) (hg : GraphOk d.nodes) (hf : d.nodes.length < fuel) :
    ∃ b s', dump (noting emit) fuel d s = .ok (b, s') ∧ CallInv s' ∧ s'.opened = true ∧ (s.closed = true → s'.closed = true) := by
  by_cases hne : d.nodes = []
  · unfold dump
    simp only [ho, if_true, if_pos hne]
    obtain ⟨b, s', h1, h2, h3, h4, h5⟩ := close_between emit s h ho
    exact ⟨b, s', h1, h2, h3, fun hc => by rw [(h5 hc).2]; exact hc⟩
  · obtain ⟨w, S, hw, -, -, -, -, -, hd⟩ := C36_dump_follows_the_walk (τ := τ × List EvData) hg hne
    rw [hd (noting emit) fuel s hf ho h.last]
    obtain ⟨es', h1, h2, -⟩ := feed_noting emit (docEvents d (dumpName w) w) s.out
    have hno : ∀ e ∈ es', (e matches .streamStart _) = false ∧ (e matches .streamEnd) = false :=
      fun e he => doc_no_stream (C38_dump_is_grammatical hw) e (h1.subset he)
    refine ⟨_, _, rfl, ⟨h.last, ?_, ?_, h.order⟩, ho, fun hc => hc⟩
    · show List.countP _ (feedEvs (noting emit) _ s.out).2.2 = _
      rw [h2, List.countP_append, h.starts, List.countP_eq_zero.mpr fun e he => by rw [(hno e he).1]; simp]; rfl
    · show List.countP _ (feedEvs (noting emit) _ s.out).2.2 = _
      rw [h2, List.countP_append, h.ends, List.countP_eq_zero.mpr fun e he => by rw [(hno e he).2]; simp]; rfl

theorem call_between (emit : Event → τ → Bool × τ) (fuel : Nat) (c : DCall) (s : Dumper (τ × List EvData)) (h : CallInv s)
    (hc : c.Allowed fuel s.opened) :
    ∃ b s', c.run (noting emit) fuel s = .ok (b, s') ∧ CallInv s' ∧ (s.opened = true → s'.opened = true) ∧
      (s.closed = true → s'.closed = true) := by
  cases c with
  | opens =>
    obtain ⟨b, s', h1, h2, h3, h4⟩ := open_between emit s h hc
    refine ⟨b, s', h1, h2, fun ho => ?_, fun ho => ?_⟩
    · have : s.opened = false := hc
      rw [this] at ho; cases ho
    · have : s.opened = false := hc
      rw [h.order ho] at this; cases this
  | closes =>
    obtain ⟨b, s', h1, h2, h3, h4, h5⟩ := close_between emit s h hc
    exact ⟨b, s', h1, h2, fun _ => h3, fun ho => by rw [(h5 ho).2]; exact ho⟩
  | dumps d =>
    cases ho : s.opened with
    | true =>
      obtain ⟨b, s', h1, h2, h3, h4⟩ := nodes_between emit fuel d s h ho hc.1 hc.2
      exact ⟨b, s', h1, h2, fun _ => h3, h4⟩
    | false =>
      obtain ⟨b, s', h1, h2, h3, h4⟩ := open_between emit s h ho
      have hsc : s.closed = false := by
        cases hx : s.closed with
        | false => rfl
        | true => rw [h.order hx] at ho; cases ho
      show ∃ b s', dump (noting emit) fuel d s = _ ∧ _
      cases b with
      | false =>
        refine ⟨false, s', ?_, h2, (fun hx => by cases hx), fun hx => ?_⟩
        · unfold dump; simp only [ho, Bool.false_eq_true, if_false, h1]
        · rw [hsc] at hx; cases hx
      | true =>
        obtain ⟨b2, s2, g1, g2, g3, g4⟩ := nodes_between emit fuel d s' h2 h3 hc.1 hc.2
        refine ⟨b2, s2, ?_, g2, (fun hx => by cases hx), fun hx => ?_⟩
        · unfold dump at g1 ⊢
          simp only [ho, Bool.false_eq_true, if_false, h1]
          rw [h3] at g1
          simpa using g1
        · rw [hsc] at hx; cases hx

/-- All calls meet their preconditions. `open` is allowed while STREAM-START has not been accepted, `close` afterwards. -/
def allAllowed (emit : Event → τ → Bool × τ) (fuel : Nat) : List DCall → Dumper τ → Prop
  | [], _ => True
  | c :: cs, s => c.Allowed fuel s.opened ∧ ∀ b s', c.run emit fuel s = .ok (b, s') → allAllowed emit fuel cs s'

/-- **C51.** For every emitter, and every sequence of calls that meet their preconditions, whatever fails on the way: no call reaches an
assertion or an invalid access, among all events the emitter has accepted there is one STREAM-START iff the dumper is open and none
otherwise, one STREAM-END iff it is closed and none otherwise, and the anchor counter is back at 0 after every call, so that the anchors
of a document do not depend on what was dumped before. -/
theorem C51_life_cycle (emit : Event → τ → Bool × τ) (fuel : Nat) (cs : List DCall) (x : τ)
    (h : allAllowed (noting emit) fuel cs { out := (x, []) }) :
    ∃ bs s, runCalls (noting emit) fuel cs { out := (x, []) } = .ok (bs, s) ∧ s.last = 0 ∧
      s.out.2.countP (fun e => e matches .streamStart _) = (if s.opened then 1 else 0) ∧
      s.out.2.countP (fun e => e matches .streamEnd) = (if s.closed then 1 else 0) := by
  have key : ∀ (cs : List DCall) (s : Dumper (τ × List EvData)), CallInv s → allAllowed (noting emit) fuel cs s →
      ∃ bs s', runCalls (noting emit) fuel cs s = .ok (bs, s') ∧ CallInv s' := by
    intro cs
    induction cs with
    | nil => intro s hs _; exact ⟨[], s, rfl, hs⟩
    | cons c cs ih =>
      intro s hs ⟨hc, hcs⟩
      obtain ⟨b, s', h1, h2, -, -⟩ := call_between emit fuel c s hs hc
      obtain ⟨bs, s2, g1, g2⟩ := ih s' h2 (hcs b s' h1)
      refine ⟨b :: bs, s2, ?_, g2⟩
      unfold runCalls
      rw [h1]; simp only [g1]
  obtain ⟨bs, s, h1, h2⟩ := key cs _ ⟨rfl, rfl, rfl, (fun h => by cases h)⟩ h
  exact ⟨bs, s, h1, h2.last, h2.starts, h2.ends⟩

/-- The events of documents dumped one after the other. -/
inductive DumpedDocs : List Doc → List EvData → Prop
  | nil : DumpedDocs [] []
  | cons {d ds w S es} : NodeWalk d.nodes [] [1] w S → DumpedDocs ds es → DumpedDocs (d :: ds) (docEvents d (dumpName w) w ++ es)

theorem dumped_docs {ds : List Doc} {es : List EvData} (h : DumpedDocs ds es) : GDocs es := by
  induction h with
  | nil => exact .nil
  | cons hw _ ih => exact .cons (C38_dump_is_grammatical hw) ih

theorem feed_keepAll (es o : List EvData) : feedEvs keepAll es o = (true, o ++ es) := by
  induction es generalizing o with
  | nil => simp [feedEvs]
  | cons e es ih => simp [feedEvs, keepAll, ih]

/-- **C51, whole streams.** Dumping any documents (none of them empty) and closing, once or more often, sends STREAM-START, the events of
the documents each numbered from `id001`, and STREAM-END: a word of the event grammar. -/
theorem C51_whole_stream (fuel : Nat) (ds : List Doc) (k : Nat) (hds : ∀ d ∈ ds, GraphOk d.nodes ∧ d.nodes ≠ [] ∧ d.nodes.length < fuel) :
    ∃ es, DumpedDocs ds es ∧ GStream (.streamStart none :: es ++ [.streamEnd]) ∧
      runCalls keepAll fuel (.opens :: ds.map .dumps ++ List.replicate (k + 1) .closes) { out := [] } =
        .ok (List.replicate (ds.length + k + 2) true,
          { opened := true, closed := true, last := 0, out := .streamStart none :: es ++ [.streamEnd] }) := by
  have closes : ∀ (k : Nat) (o : List EvData), runCalls keepAll fuel (List.replicate k .closes)
      { opened := true, closed := true, last := 0, out := o } =
      .ok (List.replicate k true, { opened := true, closed := true, last := 0, out := o }) := by
    intro k o
    induction k with
    | zero => rfl
    | succ k ih =>
      rw [List.replicate_succ, List.replicate_succ]
      unfold runCalls
      simp only [DCall.run, dClose, not_true_eq_false, if_false, if_true, ih]
  have docs : ∀ (ds : List Doc) (o : List EvData), (∀ d ∈ ds, GraphOk d.nodes ∧ d.nodes ≠ [] ∧ d.nodes.length < fuel) →
      ∃ es, DumpedDocs ds es ∧ runCalls keepAll fuel (ds.map .dumps ++ List.replicate (k + 1) .closes)
          { opened := true, closed := false, last := 0, out := o } =
        .ok (List.replicate (ds.length + k + 1) true,
          { opened := true, closed := true, last := 0, out := o ++ es ++ [.streamEnd] }) := by
    intro ds
    induction ds with
    | nil =>
      intro o _
      refine ⟨[], .nil, ?_⟩
      rw [List.map_nil, List.nil_append, List.replicate_succ]
      unfold runCalls
      simp only [DCall.run, dClose, not_true_eq_false, if_false, Bool.false_eq_true, keepAll, closes]
      simp [List.replicate_succ]
    | cons d ds ih =>
      intro o h
      obtain ⟨hg, hne, hf⟩ := h d (.head _)
      obtain ⟨w, S, hw, -, -, -, -, -, hd⟩ := C36_dump_follows_the_walk (τ := List EvData) hg hne
      obtain ⟨es, h1, h2⟩ := ih (o ++ docEvents d (dumpName w) w) fun d hd => h d (.tail _ hd)
      refine ⟨_, .cons hw h1, ?_⟩
      rw [List.map_cons, List.cons_append]
      unfold runCalls
      simp only [DCall.run]
      rw [hd keepAll fuel _ hf rfl rfl]
      simp only [feed_keepAll, h2]
      rw [show (d :: ds).length + k + 1 = (ds.length + k + 1) + 1 by simp; omega, List.append_assoc o]
      rfl
  obtain ⟨es, h1, h2⟩ := docs ds [.streamStart none] hds
  refine ⟨es, h1, ⟨_, _, dumped_docs h1, rfl⟩, ?_⟩
  rw [List.cons_append]
  unfold runCalls
  simp only [DCall.run, dOpen, Bool.false_eq_true, if_false, keepAll, List.nil_append, h2]
  rw [show ds.length + k + 2 = (ds.length + k + 1) + 1 by omega, List.replicate_succ]
  rfl

/-- The explicit `open` may be left out before the first document. -/
theorem C51_open_is_optional (emit : Event → τ → Bool × τ) (fuel : Nat) (d : Doc) (x : τ) (h : (emit { data := .streamStart none } x).1 = true) :
    ∃ s, dOpen emit { out := x } = .ok (true, s) ∧ dump emit fuel d { out := x } = dump emit fuel d s := by
  rw [C36_first_dump _ _ _ _ rfl]
  unfold dOpen
  simp only [Bool.false_eq_true, if_false]
  rcases hh : emit { data := .streamStart none } x with ⟨b, o⟩
  rw [hh] at h
  simp only at h
  subst h
  exact ⟨_, rfl, rfl⟩

example : GraphOk cyclic.nodes ∧ cyclic.nodes ≠ [] ∧ cyclic.nodes.length < 5 := by
  refine ⟨?_, by simp [cyclic], by simp [cyclic]⟩
  unfold GraphOk cyclic
  simp [Node.children]

/-- Calls that meet their preconditions, with an emitter that refuses everything at first. -/
example : allAllowed (noting fun _ (n : Nat) => (decide (1 < n), n + 1)) 5 [.dumps cyclic, .opens, .dumps cyclic] { out := (0, []) } := by
  have hg : GraphOk cyclic.nodes := by unfold GraphOk cyclic; simp [Node.children]
  refine ⟨⟨hg, by simp [cyclic]⟩, fun b s' h => ?_⟩
  have : s' = { out := (1, []) } := by
    simp [DCall.run, dump, dOpen, noting] at h
    exact h.2.symm
  subst this
  refine ⟨rfl, fun b s' h => ⟨⟨hg, by simp [cyclic]⟩, fun _ _ _ => trivial⟩⟩

end LibYaml
