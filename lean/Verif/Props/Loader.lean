import Verif.Proofs.LoaderRun

/-!
# Properties C31–C35: the loader

For every token source that does not itself have undefined behaviour (so for every scanner and input), every limit on the
size of stacks, and every number of calls. `Evs S n fuel p w q` says that successive calls of `yaml_parser_parse` on `p`
return the events `w`.
-/

namespace LibYaml

open Spec

variable {σ : Type}

/-- The results of calls are results of `Loaded` steps. -/
theorem Loads.mem {room} {S : TokSrc σ} {n : Int} {fuel : Nat} {p r : Parser σ} {os : List LOut} (h : Loads room S n fuel p os r)
    {o : LOut} (ho : o ∈ os) : ∃ p' q, Loaded room S n fuel p' o q := by
  induction h with
  | nil => cases ho
  | cons h1 _ _ ih =>
    rcases List.mem_cons.mp ho with rfl | ho
    · exact ⟨_, _, h1⟩
    · exact ih ho

/-! ### C31 -/

/-- All ids stored in the node denote nodes of the document; so every key has a value. -/
def IdsValid (d : Doc) (nd : Node) : Prop :=
  match nd.data with
  | .scalar .. => True
  | .sequence items _ => ∀ i ∈ items, 1 ≤ i ∧ i ≤ d.nodes.length
  | .mapping pairs _ => ∀ p ∈ pairs, (1 ≤ p.1 ∧ p.1 ≤ d.nodes.length) ∧ (1 ≤ p.2 ∧ p.2 ≤ d.nodes.length)

/-- Documents that represent events are well formed. -/
theorem repDoc_wellFormed {w : List Event} {d : Doc} (h : RepDoc w d) :
    d.nodes ≠ [] ∧ (∀ nd ∈ d.nodes, IdsValid d nd) ∧ ∀ j, 1 ≤ j → j ≤ d.nodes.length → NodeReach d.nodes [1] j := by
  obtain ⟨es, body, ee, A, _, _, _, _, _, hr⟩ := h
  obtain ⟨h1, _, h3⟩ := rep_ids hr (by simp)
  simp only [Nat.zero_add] at h1 h3
  refine ⟨?_, fun nd hnd => ?_, fun j hj1 hj2 => ?_⟩
  · intro h; have := h1 1 (by simp); rw [h] at this; simp at this
  · have h4 := h3 nd hnd
    unfold IdsValid
    unfold Node.children at h4
    cases hd : nd.data with
    | scalar => trivial
    | sequence items st => rw [hd] at h4; exact h4
    | mapping pairs st =>
      rw [hd] at h4
      intro p hp
      exact ⟨h4 p.1 (List.mem_flatMap.mpr ⟨p, hp, by simp⟩), h4 p.2 (List.mem_flatMap.mpr ⟨p, hp, by simp⟩)⟩
  · have := rep_reach hr [] [] rfl j (by omega) (by omega)
    simpa using this

/-- C31. Every document returned by `yaml_parser_load` is either the empty document returned at the end of the stream, or has a root
(node 1), all ids in it denote nodes of it, and all of its nodes can be reached from the root. -/
theorem C31_loaded_documents_are_well_formed {S : TokSrc σ} (hS : S.Safe) (room : Nat → Bool) (n : Int) (fuel m k : Nat) (x : σ)
    {os : List LOut} {r : Parser σ} (h : loadN room S n fuel m k (Parser.init x) = .ok (os, r)) {d : Doc} (hd : .doc d ∈ os) :
    d = Doc.empty ∨ d.nodes ≠ [] ∧ (∀ nd ∈ d.nodes, IdsValid d nd) ∧ ∀ j, 1 ≤ j → j ≤ d.nodes.length → NodeReach d.nodes [1] j := by
  obtain ⟨hl, _⟩ := loadN_spec hS room n fuel m k (.inl (ready_init x)) h
  obtain ⟨p, q, hL⟩ := hl.mem hd
  cases hL with
  | doc _ _ hrep _ _ => exact .inr (repDoc_wellFormed hrep)
  | last => exact .inl rfl
  | again => exact .inl rfl

/-! ### C32 -/

theorem anchorFault_append {seen : List (Text × Mark)} {v w : List Event} (h : anchorFault seen (v ++ w) = none) :
    anchorFault seen v = none := by
  induction v generalizing seen with
  | nil => rfl
  | cons e v ih =>
    simp only [List.cons_append, anchorFault] at h ⊢
    cases hd : e.data with
    | alias a =>
      rw [hd] at h
      simp only at h ⊢
      by_cases hs : (seen.any fun p => p.1 == a) = true
      · rw [if_pos hs] at h ⊢; exact ih h
      · rw [if_neg hs] at h; cases h
    | _ =>
      rw [hd] at h
      simp only at h ⊢
      cases ha : anchorOf _ with
      | none => rw [ha] at h; exact ih h
      | some a =>
        rw [ha] at h
        simp only at h ⊢
        cases hf : seen.find? (fun p => p.1 == a) with
        | some p => rw [hf] at h; cases h
        | none => rw [hf] at h; exact ih h

/-- Composition of the events of a document ends with the fault of `anchorFault`, if there is one and memory suffices; `w` may be any
beginning of the events of a document. -/
theorem C32_faults_are_errors (room : Nat → Bool) {w : List Event} {gs : List Frame} (hne : NoEnd w)
    (hr : (Cfg.doc [.docNode]).run (w.map Event.data) = some (.doc gs)) (hroom : ∀ k, k < w.length → room k = true) (err : Fail) :
    composeAll room w {} = .error err ↔ anchorFault [] w = some err := by
  have h := compose_outcome room hne hr
  constructor
  · intro hc
    rw [hc] at h
    rcases h with h | ⟨_, k, hk, hf⟩
    · exact h
    · rw [hroom k hk] at hf; cases hf
  · intro ha
    cases hc : composeAll room w {} with
    | ok s => rw [hc] at h; rw [h.1] at ha; cases ha
    | error e =>
      rw [hc] at h
      rcases h with h | ⟨_, k, hk, hf⟩
      · rw [h] at ha; injection ha with ha; rw [ha]
      · rw [hroom k hk] at hf; cases hf

/-- C32. What a call of `yaml_parser_load` on a parser in which no call has failed does with anchors: a document is returned only if
the events of its body have no fault with anchors (an alias without an earlier node with that anchor, or a second node with the same
anchor), where only the anchors of this document count; if the call fails and the parser did not, then there is such a fault and it is
the error recorded, or memory ran out. -/
theorem C32_anchors {S : TokSrc σ} (hS : S.Safe) (room : Nat → Bool) (n : Int) (fuel m k : Nat) (x : σ)
    {os : List LOut} {p q : Parser σ} {o : LOut} (h : loadN room S n fuel m k (Parser.init x) = .ok (os, p)) (hos : .failed ∉ os)
    (ho : load room S n fuel m p = .ok (o, q)) :
    (∀ d, o = .doc d → d = Doc.empty ∨ ∃ pre es body ee A, Evs S n fuel p (pre ++ (es :: body ++ [ee])) q ∧ RepDoc (es :: body ++ [ee]) d ∧
        anchorFault [] body = none ∧ Rep .node [] 0 body [1] A d.nodes ∧ A = bindings 0 (body.map Event.data) ∧ Functional A) ∧
    (o = .failed → (∃ w p1, Evs S n fuel p w p1 ∧ parse S n fuel p1 = .ok (.failed, q)) ∨
      ∃ pre es w p1 err, Evs S n fuel p (pre ++ es :: w) p1 ∧ (∃ v ts i, es.data = .documentStart v ts i) ∧ NoEnd w ∧
        q = { p1 with error := some err } ∧
        (anchorFault [] w = some err ∨ err = .memory ∧ ∃ k, k < w.length ∧ room k = false)) := by
  obtain ⟨hl, _⟩ := loadN_spec hS room n fuel m k (.inl (ready_init x)) h
  have hp : Ready p .start ∨ Ready p .docs ∨ Ended p := by
    have : ∀ {p0 os r}, Loads room S n fuel p0 os r → .failed ∉ os → (Ready p0 .start ∨ Ready p0 .docs ∨ Ended p0) →
        (Ready r .start ∨ Ready r .docs ∨ Ended r) := by
      intro p0 os r h hos h0
      induction h with
      | nil => exact h0
      | cons h1 _ _ ih =>
        rcases h1.next with ⟨rfl, _⟩ | ⟨_, h2⟩
        · exact absurd (.head _) hos
        · exact ih (fun hm => hos (.tail _ hm)) (.inr h2)
    exact this hl hos (.inl (ready_init x))
  rcases load_spec hS room n fuel m hp with h1 | ⟨o', q', h1, hL⟩
  · rw [h1] at ho; cases ho
  · rw [h1] at ho
    cases ho
    cases hL with
    | doc h1 h2 h3 h4 h5 =>
      refine ⟨fun d hd => ?_, fun h => by cases h⟩
      cases hd
      obtain ⟨es, body, ee, rfl, hf, _⟩ := h4
      obtain ⟨es', body', ee', A, heq, _, _, _, _, hr⟩ := id h3
      have hb : body = body' := by
        rw [List.cons_append, List.cons_append, List.cons.injEq] at heq
        exact (List.append_inj' heq.2 rfl).1
      subst hb
      exact .inr ⟨_, es, body, ee, A, h2, h3, hf, hr, by simpa using (rep_bindings hr).1, rep_functional hr (by intro a i j h; cases h)⟩
    | last => exact ⟨fun d hd => by cases hd; exact .inl rfl, fun h => by cases h⟩
    | again => exact ⟨fun d hd => by cases hd; exact .inl rfl, fun h => by cases h⟩
    | parserFails ha hb => exact ⟨fun d hd => (by cases hd), fun _ => .inl ⟨_, _, ha, hb⟩⟩
    | composerFails h1 h2 h3 h4 h5 h6 => exact ⟨fun d hd => (by cases hd), fun _ => .inr ⟨_, _, _, _, _, h2, ⟨_, _, _, h3⟩, h6, rfl, h4⟩⟩

theorem bindings_mem_lt {n : Nat} {w : List EvData} {a : Text} {i : Nat} (h : (a, i) ∈ bindings n w) :
    ∃ pre e post, w = pre ++ e :: post ∧ anchorOf e = some a ∧ i = n + ((pre ++ [e]).filter startsNode).length := by
  induction w generalizing n with
  | nil => cases h
  | cons e w ih =>
    simp only [bindings] at h
    have hn : ∀ m, (if startsNode e = true then n + 1 else n) + m = n + (m + if startsNode e = true then 1 else 0) := by
      intro m; split <;> omega
    have tail : (a, i) ∈ bindings (if startsNode e = true then n + 1 else n) w → ∃ pre e' post, e :: w = pre ++ e' :: post ∧
        anchorOf e' = some a ∧ i = n + ((pre ++ [e']).filter startsNode).length := by
      intro h
      obtain ⟨pre, e', post, rfl, h1, h2⟩ := ih h
      refine ⟨e :: pre, e', post, rfl, h1, ?_⟩
      rw [h2, hn, List.cons_append, List.filter_cons]
      by_cases hs : startsNode e = true
      · rw [if_pos hs, if_pos hs, List.length_cons]
      · rw [if_neg hs, if_neg hs]; rfl
    cases ha : anchorOf e with
    | none => rw [ha] at h; exact tail h
    | some b =>
      rw [ha] at h
      simp only [List.mem_cons, Prod.mk.injEq] at h
      rcases h with ⟨rfl, rfl⟩ | h
      · refine ⟨[], e, w, rfl, ha, ?_⟩
        simp only [List.nil_append, List.filter_cons]
        by_cases hs : startsNode e = true
        · simp [hs]
        · simp [hs]
      · exact tail h

/-- C32, meaning of the bindings: `(a, i)` is among them iff the event that starts node `i` carries the anchor `a`. -/
theorem C32_bindings (w : List EvData) (a : Text) (i : Nat) : (a, i) ∈ bindings 0 w ↔
    ∃ pre e post, w = pre ++ e :: post ∧ anchorOf e = some a ∧ i = (pre.filter startsNode).length + 1 := by
  have hs : ∀ e, anchorOf e = some a → startsNode e = true := by
    intro e h; cases e <;> first | rfl | cases h
  constructor
  · intro h
    obtain ⟨pre, e, post, h1, h2, h3⟩ := bindings_mem_lt h
    exact ⟨pre, e, post, h1, h2, by simp [h3, List.filter_append, hs e h2]⟩
  · rintro ⟨pre, e, post, rfl, h2, rfl⟩
    rw [bindings_append]
    refine List.mem_append_right _ ?_
    simp only [bindings, h2, hs e h2, if_true, Nat.zero_add]
    exact .head _

/-! ### C33 -/

/-- C33. A document that represents the events of a document, read back from its root, gives exactly these events: the same order, values,
styles and tags (absent or `!` tags replaced by the default ones), aliases replaced by the number of the node with the anchor; and every
node is read. -/
theorem C33_read_back {es ee : Event} {body : List Event} {d : Doc} (h : RepDoc (es :: body ++ [ee]) d) :
    ∃ sh fuel, shapes (bindings 0 (body.map Event.data)) (body.map Event.data) = some sh ∧
      readBack d.nodes fuel 0 [1] = some (sh, d.nodes.length) := by
  obtain ⟨es', body', ee', A, heq, _, _, _, _, hr⟩ := h
  have hb : body = body' := by
    rw [List.cons_append, List.cons_append, List.cons.injEq] at heq
    exact (List.append_inj' heq.2 rfl).1
  subst hb
  have hA : A = bindings 0 (body.map Event.data) := by simpa using (rep_bindings hr).1
  obtain ⟨sh, h1, h2⟩ := rep_read hr [] [] rfl A (rep_functional hr (by intro a i j h; cases h)) (fun p hp => hp) (by simp)
  obtain ⟨g, hg⟩ := h2 [] 0 [] d.nodes.length (by simp [readBack])
  refine ⟨sh, g, by rw [← hA]; exact h1, ?_⟩
  simpa using hg

/-- C33, all of it: every document returned by a call is represented by the events that were parsed during this call: version, tag directives,
implicit flags and marks come from DOCUMENT-START and DOCUMENT-END, and the nodes read back to the events between them. -/
theorem C33_loading_is_faithful {S : TokSrc σ} (hS : S.Safe) (room : Nat → Bool) (n : Int) (fuel m k : Nat) (x : σ)
    {os : List LOut} {r : Parser σ} (h : loadN room S n fuel m k (Parser.init x) = .ok (os, r)) {d : Doc} (hd : .doc d ∈ os) :
    d = Doc.empty ∨ ∃ p q pre es body ee, Evs S n fuel p (pre ++ (es :: body ++ [ee])) q ∧
      es.data = .documentStart d.version d.tags d.startImplicit ∧ d.start = es.start ∧ ee.data = .documentEnd d.endImplicit ∧
      d.stop = ee.stop ∧ G .node (body.map Event.data) ∧
      ∃ sh f, shapes (bindings 0 (body.map Event.data)) (body.map Event.data) = some sh ∧
        readBack d.nodes f 0 [1] = some (sh, d.nodes.length) := by
  obtain ⟨hl, _⟩ := loadN_spec hS room n fuel m k (.inl (ready_init x)) h
  obtain ⟨p, q, hL⟩ := hl.mem hd
  cases hL with
  | doc h1 h2 h3 h4 h5 =>
    obtain ⟨es, body, ee, rfl, _, hg⟩ := h4
    have hrb := C33_read_back h3
    obtain ⟨es', body', ee', A, heq, ha, hb, hc, hdd, hr⟩ := h3
    rw [List.cons_append, List.cons_append, List.cons.injEq] at heq
    obtain ⟨rfl, heq⟩ := heq
    obtain ⟨rfl, he⟩ := List.append_inj' heq rfl
    injection he with he
    subst he
    exact .inr ⟨p, q, _, es, body, ee, h2, ha, hb, hc, hdd, hg, hrb⟩
  | last => exact .inl rfl
  | again => exact .inl rfl

/-- C33, the converse: grammatical events without a fault with anchors, within the limits, do compose, to the only list of nodes that
represents them. -/
theorem C33_composition_succeeds (room : Nat → Bool) {w : List Event} (hg : G .node (w.map Event.data))
    (hf : anchorFault [] w = none) (hroom : ∀ k, k < w.length → room k = true) :
    ∃ s, composeAll room w {} = .ok s ∧ ∀ ns, (∃ A, Rep .node [] 0 w [1] A ns) ↔ ns = s.nodes := by
  have hne : NoEnd w := by
    intro e he b hd
    exact g_noEnd hg b (List.mem_map.mpr ⟨e, he, hd⟩)
  have hr : (Cfg.doc [.docNode]).run (w.map Event.data) = some (.doc [.docEnd]) := run_node hg .docNode []
  have h := compose_outcome room hne hr
  cases hc : composeAll room w {} with
  | error e =>
    rw [hc] at h
    rcases h with h | ⟨_, k, hk, hf⟩
    · rw [hf] at h; cases h
    · rw [hroom k hk] at hf; cases hf
  | ok s =>
    rw [hc] at h
    refine ⟨s, rfl, fun ns => ?_⟩
    rw [← compose_iff hg ns]
    constructor
    · rintro ⟨s', h1, rfl⟩; rw [h.2] at h1; cases h1; rfl
    · rintro rfl; exact ⟨s, h.2, rfl⟩

/-! ### C34 -/

theorem loads_ended {room} {S : TokSrc σ} {n : Int} {fuel : Nat} {p r : Parser σ} {os : List LOut} (h : Loads room S n fuel p os r)
    (hp : Ended p) (hdet : ∀ o q, Loaded room S n fuel p o q → o = .doc Doc.empty ∧ q = p) :
    os = List.replicate os.length (.doc Doc.empty) ∧ r = p := by
  induction h with
  | nil => exact ⟨rfl, rfl⟩
  | cons h1 _ _ ih =>
    obtain ⟨rfl, rfl⟩ := hdet _ _ h1
    obtain ⟨h3, h4⟩ := ih hp hdet
    exact ⟨by rw [List.length_cons, List.replicate_succ, ← h3], h4⟩

/-- After the end of the stream nothing is returned but the empty document. -/
theorem loaded_ended {room} {S : TokSrc σ} {n : Int} {fuel : Nat} {p : Parser σ} (hp : Ended p) (o q)
    (h : Loaded room S n fuel p o q) : o = .doc Doc.empty ∧ q = p := by
  have hno : ∀ (e : Event) (q : Parser σ), parse S n fuel p ≠ .ok (.event e, q) := by
    intro e q he
    unfold parse at he
    rw [show (p.st.ended || p.error.isSome || p.st.state = .done) = true by simp [hp.ended]] at he
    cases he
  have hev : ∀ {w q}, Evs S n fuel p w q → w = [] ∧ q = p := by
    intro w q h
    cases h with
    | nil => exact ⟨rfl, rfl⟩
    | cons h1 _ => exact absurd h1 (hno _ _)
  cases h with
  | doc _ h2 _ h4 _ =>
    obtain ⟨es, body, ee, rfl, _⟩ := h4
    have := (hev h2).1
    simp at this
  | last _ h2 _ _ => have := (hev h2).1; simp at this
  | again => exact ⟨rfl, rfl⟩
  | parserFails h1 h2 _ =>
    obtain ⟨_, rfl⟩ := hev h1
    unfold parse at h2
    rw [show (_ || _ || _) = true by simp [hp.ended]] at h2
    cases h2
  | composerFails _ h2 _ _ _ _ => have := (hev h2).1; simp at this

theorem loads_docs {room} {S : TokSrc σ} {n : Int} {fuel : Nat} {p r : Parser σ} {os : List LOut} (h : Loads room S n fuel p os r)
    (hp : Ready p .start ∨ Ready p .docs) (hos : os ≠ []) :
    ∃ (pre : List Event) (ws : List (List Event)) (ds : List Doc) (tail : List LOut), PreOf p pre ∧ os = ds.map .doc ++ tail ∧
      ws.length = ds.length ∧ (∀ wd ∈ ws.zip ds, RepDoc wd.1 wd.2) ∧
      ((tail = [] ∧ Evs S n fuel p (pre ++ ws.flatten) r) ∨
       (∃ j ee, tail = List.replicate (j + 1) (.doc Doc.empty) ∧ ee.data = .streamEnd ∧ Evs S n fuel p (pre ++ ws.flatten ++ [ee]) r) ∨
       tail = [.failed]) := by
  induction h with
  | nil => exact absurd rfl hos
  | @cons p o q os r h1 hf h2 ih =>
    cases h1 with
    | @doc pre w d _ ha hb hc hd he =>
      by_cases hos' : os = []
      · subst hos'
        cases h2
        exact ⟨pre, [w], [d], [], ha, rfl, rfl, by simpa using hc, .inl ⟨rfl, by simpa using hb⟩⟩
      · obtain ⟨pre', ws, ds, tail, h3, rfl, h5, h6, h7⟩ := ih (.inr he) hos'
        have : pre' = [] := by
          unfold PreOf at h3
          rwa [if_neg (fun hs => by cases (pinv_start he.inv).mp hs)] at h3
        subst this
        refine ⟨pre, w :: ws, d :: ds, tail, ha, rfl, by simp [h5], ?_, ?_⟩
        · intro wd hwd
          simp only [List.zip_cons_cons, List.mem_cons] at hwd
          rcases hwd with rfl | hwd
          · exact hc
          · exact h6 wd hwd
        · rcases h7 with ⟨h7, h8⟩ | ⟨j, ee, h7, h8, h9⟩ | h7
          · left; exact ⟨h7, by simpa using hb.append h8⟩
          · right; left; exact ⟨j, ee, h7, h8, by simpa using hb.append h9⟩
          · right; right; exact h7
    | @last pre e _ ha hb hc hd =>
      obtain ⟨h3, h4⟩ := loads_ended h2 hd (loaded_ended hd)
      refine ⟨pre, [], [], .doc Doc.empty :: os, ha, rfl, rfl, by simp, .inr (.inl ⟨os.length, e, ?_, hc, by simpa [h4] using hb⟩)⟩
      rw [List.replicate_succ, ← h3]
    | again ha =>
      rcases hp with hp | hp
      · have := hp.going.ended; rw [ha.ended] at this; cases this
      · have := hp.going.ended; rw [ha.ended] at this; cases this
    | parserFails ha hb hc =>
      cases hf rfl
      obtain ⟨pre, hpre⟩ : ∃ pre, PreOf p pre := by
        unfold PreOf; split
        · exact ⟨[{ data := .streamStart none, start := {}, stop := {} }], _, _, rfl, rfl⟩
        · exact ⟨[], rfl⟩
      exact ⟨pre, [], [], [.failed], hpre, rfl, rfl, by simp, .inr (.inr rfl)⟩
    | composerFails ha hb hc hd he _ =>
      cases hf rfl
      exact ⟨_, [], [], [.failed], ha, rfl, rfl, by simp, .inr (.inr rfl)⟩

/-- C34. The results of `k` calls on a new parser are: documents that represent, in order and without gap, the events of the stream, one
document per call; then, once STREAM-END was parsed, only empty documents, or, at the end, one failure. -/
theorem C34_one_document_per_call {S : TokSrc σ} (hS : S.Safe) (room : Nat → Bool) (n : Int) (fuel m k : Nat) (x : σ)
    {os : List LOut} {r : Parser σ} (h : loadN room S n fuel m k (Parser.init x) = .ok (os, r)) (hk : k ≠ 0) :
    ∃ (se : Event) (ws : List (List Event)) (ds : List Doc) (tail : List LOut), (∃ enc, se.data = .streamStart enc) ∧
      os = ds.map .doc ++ tail ∧ os.length = k ∧ ws.length = ds.length ∧ (∀ wd ∈ ws.zip ds, RepDoc wd.1 wd.2) ∧
      ((tail = [] ∧ Evs S n fuel (Parser.init x) (se :: ws.flatten) r) ∨
       (∃ j ee, tail = List.replicate (j + 1) (.doc Doc.empty) ∧ ee.data = .streamEnd ∧
          Evs S n fuel (Parser.init x) (se :: ws.flatten ++ [ee]) r ∧ GStream ((se :: ws.flatten ++ [ee]).map Event.data)) ∨
       tail = [.failed]) := by
  obtain ⟨hl, hlen⟩ := loadN_spec hS room n fuel m k (.inl (ready_init x)) h
  obtain ⟨pre, ws, ds, tail, h1, h2, h3, h4, h5⟩ := loads_docs hl (.inl (ready_init x)) (by rintro rfl; exact hk hlen.symm)
  unfold PreOf at h1
  rw [if_pos (by rfl)] at h1
  obtain ⟨se, enc, rfl, hse⟩ := h1
  refine ⟨se, ws, ds, tail, ⟨enc, hse⟩, h2, hlen, h3, h4, ?_⟩
  rcases h5 with ⟨h5, h6⟩ | ⟨j, ee, h5, h6, h7⟩ | h5
  · exact .inl ⟨h5, h6⟩
  · refine .inr (.inl ⟨j, ee, h5, h6, h7, ?_⟩)
    have hN := (Evs.parseN h7)
    have := (C25_events_obey_grammar hS n fuel _ x hN).2
    rw [events_map] at this
    exact this (by simp [h6])
  · exact .inr (.inr h5)

/-! ### C35 -/

/-- C35 does not hold: after a call of `yaml_parser_load` that failed, for whatever reason, every further call hits a failing assertion
(loader.c:97 or loader.c:190), since `yaml_parser_parse` then succeeds without an event. -/
theorem C35_load_after_failure_aborts {S : TokSrc σ} (hS : S.Safe) (room : Nat → Bool) (n : Int) (fuel m k : Nat) (x : σ)
    {os : List LOut} {r : Parser σ} (h : loadN room S n fuel m k (Parser.init x) = .ok (os, r)) (hf : .failed ∈ os) (fuel' m' : Nat) :
    load room S n fuel' m' r = .error .ub := by
  have hl := (loadN_spec hS room n fuel m k (.inl (ready_init x)) h).1
  refine load_failed S room n fuel' m' ?_
  clear h
  generalize Parser.init x = p at hl
  induction hl with
  | nil => cases hf
  | cons h1 h2 h3 ih =>
    rcases h1.next with ⟨rfl, hq⟩ | ⟨hne, _⟩
    · cases h2 rfl
      cases h3
      exact hq
    · rcases List.mem_cons.mp hf with h | h
      · exact absurd h.symm hne
      · exact ih h

/-- C35, what does hold: as long as no call has failed, a call returns a document or fails properly (the fuel of the model aside). Missing: the
same for calls after a failed one, which is false by `C35_load_after_failure_aborts`. -/
theorem C35_load_is_safe_partial {S : TokSrc σ} (hS : S.Safe) (room : Nat → Bool) (n : Int) (fuel m k : Nat) (x : σ)
    {os : List LOut} {r : Parser σ} (h : loadN room S n fuel m k (Parser.init x) = .ok (os, r)) (hf : .failed ∉ os) (fuel' m' : Nat) :
    load room S n fuel' m' r ≠ .error .ub := by
  have hl := (loadN_spec hS room n fuel m k (.inl (ready_init x)) h).1
  have hr : Ready r .start ∨ Ready r .docs ∨ Ended r := by
    have h0 : Ready (Parser.init x) .start ∨ Ready (Parser.init x) .docs ∨ Ended (Parser.init x) := .inl (ready_init x)
    clear h
    generalize Parser.init x = p at hl h0
    induction hl with
    | nil => exact h0
    | cons h1 _ _ ih =>
      rcases h1.next with ⟨rfl, _⟩ | ⟨_, h2⟩
      · exact absurd (.head _) hf
      · exact ih (fun hm => hf (.tail _ hm)) (.inr h2)
  rcases load_spec hS room n fuel' m' hr with h1 | ⟨o, q, h1, _⟩
  · rw [h1]; simp
  · rw [h1]; simp

/-! ### Concrete runs -/

/-- Results and recorded error of `k` calls on a token list. -/
def loadOutcome (k : Nat) (toks : List Token) : Option (List LOut × Option Fail) :=
  match loadN cRoom (listSrc .fuel) 1000 30 30 k (Parser.init toks) with
  | .ok (os, p) => some (os, p.error)
  | .error _ => none

/-- Two documents: `[&a {k: *a}, v]` and `z`, then the empty document twice. -/
def loadSample : List Token :=
  [tk (.streamStart .utf8), tk .flowSequenceStart, tk (.anchor (lit ['a'])), tk .flowMappingStart, tk .key,
   tk (.scalar (lit ['k']) .plain), tk .value, tk (.alias (lit ['a'])), tk .flowMappingEnd, tk .flowEntry,
   tk (.scalar (lit ['v']) .plain), tk .flowSequenceEnd, tk .documentStart, tk (.scalar (lit ['z']) .plain), tk .streamEnd]

/-- The hypotheses of C31–C34 are met by a run with an alias to an ancestor, two documents and the end of the stream. -/
example : loadOutcome 4 loadSample = some
    ([.doc { nodes := [{ tag := seqTag, data := .sequence [2, 4] .flow, start := {}, stop := {} },
                       { tag := mapTag, data := .mapping [(3, 2)] .flow, start := {}, stop := {} },
                       { tag := strTag, data := .scalar (lit ['k']) .plain, start := {}, stop := {} },
                       { tag := strTag, data := .scalar (lit ['v']) .plain, start := {}, stop := {} }],
             startImplicit := true, endImplicit := true },
      .doc { nodes := [{ tag := strTag, data := .scalar (lit ['z']) .plain, start := {}, stop := {} }],
             startImplicit := false, endImplicit := true },
      .doc Doc.empty, .doc Doc.empty], none) := by decide +kernel

/-- An undefined alias fails; the failure is the one predicted by `anchorFault`. -/
example : loadOutcome 1 [tk (.streamStart .utf8), tk (.alias (lit ['a'])), tk .streamEnd] =
    some ([.failed], some (.composer none {} "found undefined alias" {})) := by decide +kernel

/-- The same anchor twice fails. -/
example : loadOutcome 1 [tk (.streamStart .utf8), tk .flowSequenceStart, tk (.anchor (lit ['a'])), tk (.scalar [] .plain), tk .flowEntry,
      tk (.anchor (lit ['a'])), tk (.scalar [] .plain), tk .flowSequenceEnd, tk .streamEnd] =
    some ([.failed], some (.composer (some "found duplicate anchor; first occurrence") {} "second occurrence" {})) := by decide +kernel

/-- Anchors do not leak: the alias in the second document is undefined. -/
example : loadOutcome 2 [tk (.streamStart .utf8), tk (.anchor (lit ['a'])), tk (.scalar [] .plain), tk .documentStart,
      tk (.alias (lit ['a'])), tk .streamEnd] =
    some ([.doc { nodes := [{ tag := strTag, data := .scalar [] .plain, start := {}, stop := {} }], startImplicit := true,
                  endImplicit := true }, .failed], some (.composer none {} "found undefined alias" {})) := by decide +kernel

/-- A witness that C35 fails: the first call fails, the second one aborts. -/
example : loadOutcome 1 [tk (.streamStart .utf8), tk (.alias (lit ['a'])), tk .streamEnd] ≠ none ∧
    loadOutcome 2 [tk (.streamStart .utf8), tk (.alias (lit ['a'])), tk .streamEnd] = none := by decide +kernel

/-- Reading back the first sample document: the alias is node 2. -/
example : readBack [{ tag := seqTag, data := .sequence [2, 4] .flow, start := {}, stop := {} },
      { tag := mapTag, data := .mapping [(3, 2)] .flow, start := {}, stop := {} },
      { tag := strTag, data := .scalar (lit ['k']) .plain, start := {}, stop := {} },
      { tag := strTag, data := .scalar (lit ['v']) .plain, start := {}, stop := {} }] 5 0 [1] = some
    ([.seqStart seqTag .flow, .mapStart mapTag .flow, .scalar strTag (lit ['k']) .plain, .alias 2, .mapEnd,
      .scalar strTag (lit ['v']) .plain, .seqEnd], 4) := by decide +kernel

end LibYaml
