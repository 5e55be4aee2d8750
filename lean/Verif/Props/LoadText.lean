import Verif.Spec.TextDocs
import Verif.Proofs.LoadText
import Verif.Props.Language
import Verif.Props.Pipeline
import Verif.Props.Dumper

/-!
C60: which texts the loader accepts, and which documents it returns for them.

`Spec.TextDocs en text ws` says, by the lexical rules, the layout rules, the grammar and the rules for anchors, that the text is a stream with
the documents `ws`; `Spec.RepData w d` says that the nodes of `d` are what the events `w` denote.
-/

namespace LibYaml

open Spec

variable {f fuel m : Nat}

/-- If the parser delivers a whole stream in which the anchors are right, and memory suffices, the loader returns its documents. -/
theorem load_known (room : Nat → Bool) (o : Oracle) (n : Int) (enc : Option Enc) (bytes : List UInt8) (hsize : bytes.length < maxFileSize)
    (hf : bytes.length + 3 < f) (hfuel : 4 * bytes.length + 7 < fuel) (hm : 16 * bytes.length + 28 < m)
    {se ee : Event} {ws : List (List Event)} {p : Parser (Scanner × RS)}
    (h : parseBytes o n f fuel enc bytes (se :: (ws.flatten ++ [ee])).length = .ok ((se :: (ws.flatten ++ [ee])).map .event, p))
    (hdone : p.st.state = .done) (hse : ∃ e, se.data = .streamStart e) (hee : ee.data = .streamEnd) (hws : ∀ w ∈ ws, DocEvs w)
    (hroom : ∀ w ∈ ws, ∀ k, k < w.length → room k = true) (j : Nat) :
    ∃ ds r, loadBytes room o n f fuel m enc bytes (ws.length + (j + 1)) =
        .ok (ds.map .doc ++ List.replicate (j + 1) (.doc Doc.empty), r) ∧ List.Forall₂ RepDoc ws ds := by
  obtain ⟨σ, S, R, left, x, hS, hB, hR, hx, hfun, hl⟩ := pipeline_source (enc := enc) o hsize hf
  have hsim := parseN_sim hR n fuel (se :: (ws.flatten ++ [ee])).length (Parser.init x) _ hx
  have hov : (Parser.init x).over ((scanStart enc bytes).scanner, (scanStart enc bytes).input) = parserStart enc bytes := rfl
  rw [hov, show parseN (scannerSrc o f) n fuel (se :: (ws.flatten ++ [ee])).length (parserStart enc bytes) = _ from h] at hsim
  obtain ⟨q, y, hq, hy, rfl⟩ := hsim.of_ok
  have hev := evs_of_parseN hq
  have hover : AllRead S n fuel q := over_done (S := S) hdone
  obtain ⟨e, hse⟩ := hse
  have hpre : PreOf (Parser.init x) [se] := by
    unfold PreOf
    rw [if_pos (by rfl)]
    exact ⟨se, e, rfl, hse⟩
  obtain ⟨i, os, r, h1, h2, h3⟩ := loadN_total (n := n) (fuel := fuel) hS hB (x := x) room m (ws.length + (j + 1)) (by omega) (by omega)
  obtain ⟨k1, k2⟩ := loadN_spec hS room n fuel m i (.inl (ready_init x)) h2
  obtain ⟨k3, k4⟩ := loads_known k1 (.inl (ready_init x)) hpre hev hee hover hws hroom
  have hi : i = ws.length + (j + 1) := h3.resolve_right k3
  subst hi
  obtain ⟨ds, j', rfl, k6⟩ := k4 (by omega)
  have hj : j' = j := by
    have := k6.length_eq
    simp at k2
    omega
  subst hj
  have hsim2 := loadN_sim hR room n fuel m (ws.length + (j' + 1)) (Parser.init x) _ hx
  rw [h2] at hsim2
  obtain ⟨z, _, hz⟩ := hsim2.ok
  exact ⟨ds, _, hz, k6⟩

/-- **C60, completeness**: for a text with the documents `ws`, with enough memory and nesting below the limit, the calls of the loader return one
document after the other, each of them the one its events say, and then empty documents. -/
theorem C60_complete (room : Nat → Bool) (o : Oracle) (ho : NoFail o) (n : Int) (enc : Option Enc) (bytes : List UInt8)
    (hsize : bytes.length < maxFileSize) (hf : bytes.length + 3 < f) (hfuel : 4 * bytes.length + 7 < fuel) (hm : 16 * bytes.length + 28 < m)
    (good : List Nat) (hs : Split (chosen enc bytes).1 (chosen enc bytes).2 good []) (hlen : good.length + 1 < maxInt)
    (hdeep : ShallowText good n) {ws : List (List EvData)} (h : TextDocs (chosen enc bytes).1 good ws)
    (hroom : ∀ w ∈ ws, ∀ k, k < w.length → room k = true) (j : Nat) :
    ∃ ds r, loadBytes room o n f fuel m enc bytes (ws.length + (j + 1)) =
        .ok (ds.map .doc ++ List.replicate (j + 1) (.doc Doc.empty), r) ∧ List.Forall₂ RepData ws ds := by
  obtain ⟨⟨e, h1⟩, h2⟩ := h
  obtain ⟨es, p, k1, k2, _, k4⟩ := C59_complete o ho n enc bytes hsize hf hfuel good hs hlen hdeep h1
  obtain ⟨se, t, rfl, k5, k6⟩ := List.map_eq_cons_iff.mp k2
  obtain ⟨b, c, rfl, k7, k8⟩ := List.map_eq_append_iff.mp k6
  obtain ⟨ee, c', rfl, k9, k10⟩ := List.map_eq_cons_iff.mp k8
  rw [List.map_eq_nil_iff] at k10
  subst k10
  obtain ⟨wss, rfl, k11⟩ : ∃ wss : List (List Event), b = wss.flatten ∧ wss.map (List.map Event.data) = ws := by
    clear k1 k2 k6 h1 h2 hroom
    induction ws generalizing b with
    | nil =>
      rw [List.flatten_nil, List.map_eq_nil_iff] at k7
      exact ⟨[], k7, rfl⟩
    | cons w ws ih =>
      rw [List.flatten_cons] at k7
      obtain ⟨b1, b2, rfl, m1, m2⟩ := List.map_eq_append_iff.mp k7
      obtain ⟨wss, rfl, m3⟩ := ih b2 m2
      exact ⟨b1 :: wss, rfl, by rw [List.map_cons, m1, m3]⟩
  subst k11
  have hlen2 : (EvData.streamStart e :: (wss.map (List.map Event.data)).flatten ++ [EvData.streamEnd]).length = (se :: (wss.flatten ++ [ee])).length := by
    rw [← k2, List.length_map]
  rw [hlen2] at k1
  obtain ⟨ds, r, m1, m2⟩ := load_known (m := m) room o n enc bytes hsize hf hfuel hm k1 k4 ⟨_, k5⟩ k9
    (fun w hw => (docEvs_iff w).mpr (h2 _ (List.mem_map.mpr ⟨w, hw, rfl⟩)))
    (fun w hw k hk => hroom _ (List.mem_map.mpr ⟨w, hw, rfl⟩) k (by rwa [List.length_map])) j
  exact ⟨ds, r, by rw [List.length_map]; exact m1, reps_data m2⟩

/-- The events of a document that was composed have right anchors. -/
theorem repDoc_word {w : List Event} {d : Doc} (h : RepDoc w d) : DocEvs w := by
  obtain ⟨es, body, ee, A, rfl, h1, _, h2, _, hr⟩ := h
  have hg := rep_grammar hr
  refine ⟨es, body, ee, rfl, ⟨_, _, _, h1⟩, ⟨_, h2⟩, hg, ?_⟩
  obtain ⟨s, hs, _⟩ := (compose_iff hg _).mpr ⟨A, hr⟩
  have := compose_outcome allRoom (NoEnd.of_node hg) (run_node hg .docNode [])
  rw [hs] at this
  exact this.1

/-- **C60, soundness**: if calls of the loader return an empty document, without a failure before, then the whole input was decoded, the text is a
stream, and the documents returned are its documents, in order and without gap. -/
theorem C60_sound (room : Nat → Bool) (o : Oracle) (ho : NoFail o) (n : Int) (enc : Option Enc) (bytes : List UInt8)
    (hsize : bytes.length < maxFileSize) (hf : bytes.length + 3 < f) (good : List Nat) (tail : List UInt8)
    (hs : Split (chosen enc bytes).1 (chosen enc bytes).2 good tail) (hlen : good.length + 1 < maxInt) (k : Nat)
    {os : List LOut} {r : Parser (Scanner × RS)} (h : loadBytes room o n f fuel m enc bytes k = .ok (os, r)) (hfail : .failed ∉ os)
    (hend : .doc Doc.empty ∈ os) :
    tail = [] ∧ ∃ ws ds j, os = ds.map .doc ++ List.replicate (j + 1) (.doc Doc.empty) ∧ TextDocs (chosen enc bytes).1 good ws ∧
      List.Forall₂ RepData ws ds := by
  have hk : k ≠ 0 := by
    rintro rfl
    cases h
    cases hend
  obtain ⟨_, se, ws, ds, tl, ⟨e, h1⟩, rfl, h3, h4, h5, h6⟩ := C56_loading room o n fuel m enc bytes hsize hf k hk h
  have hrep : List.Forall₂ RepDoc ws ds := by
    rw [List.forall₂_iff_zip]
    exact ⟨h4, fun {a b} hab => h5 (a, b) hab⟩
  rcases h6 with ⟨rfl, _⟩ | ⟨j, ee, rfl, k2, k3, k4⟩ | rfl
  · exfalso
    rw [List.append_nil] at hend
    obtain ⟨d, hd, h7⟩ := List.mem_map.mp hend
    injection h7 with h7
    subst h7
    obtain ⟨w, hw⟩ := reps_right hrep _ hd
    exact (repDoc_wellFormed hw).1 rfl
  · have hp := k3.parseN
    obtain ⟨k5, k6⟩ := C59_sound o ho n enc bytes hsize hf good tail hs hlen _ hp (by
      rw [events_map]
      exact List.mem_map.mpr ⟨ee, by simp, k2⟩)
    refine ⟨k5, ws.map (List.map Event.data), ds, j, rfl, ⟨⟨e, ?_⟩, ?_⟩, ?_⟩
    · rw [events_map, List.map_append, List.map_cons, List.map_flatten, h1, List.map_cons, k2] at k6
      exact k6
    · intro w hw
      obtain ⟨v, hv, rfl⟩ := List.mem_map.mp hw
      obtain ⟨d, hd⟩ := reps_left hrep v hv
      exact (docEvs_iff v).mp (repDoc_word hd)
    · exact reps_data hrep
  · exact absurd (by simp) hfail

/-- **C60**: the loader reads a byte string to its end without failing exactly if the bytes decode to a stream of documents with right anchors. -/
theorem C60_accepts_exactly (room : Nat → Bool) (hroom : ∀ k, room k = true) (o : Oracle) (ho : NoFail o) (n : Int) (enc : Option Enc)
    (bytes : List UInt8) (hsize : bytes.length < maxFileSize) (hf : bytes.length + 3 < f) (hfuel : 4 * bytes.length + 7 < fuel)
    (hm : 16 * bytes.length + 28 < m) (good : List Nat) (tail : List UInt8) (hs : Split (chosen enc bytes).1 (chosen enc bytes).2 good tail)
    (hlen : good.length + 1 < maxInt) (hdeep : ShallowText good n) :
    (∃ k os r, loadBytes room o n f fuel m enc bytes k = .ok (os, r) ∧ .failed ∉ os ∧ .doc Doc.empty ∈ os) ↔
      tail = [] ∧ ∃ ws, TextDocs (chosen enc bytes).1 good ws := by
  constructor
  · rintro ⟨k, os, r, h1, h2, h3⟩
    obtain ⟨h4, ws, _, _, _, h5, _⟩ := C60_sound room o ho n enc bytes hsize hf good tail hs hlen k h1 h2 h3
    exact ⟨h4, ws, h5⟩
  · rintro ⟨rfl, ws, h⟩
    obtain ⟨ds, r, h1, h2⟩ := C60_complete room o ho n enc bytes hsize hf hfuel hm good hs hlen hdeep h (fun _ _ k _ => hroom k) 0
    refine ⟨_, _, r, h1, ?_, by simp⟩
    simp

/-! ### A text has at most one list of documents, and events denote one document -/

theorem docWord_same {v w t t' : List EvData} (hv : DocWord v) (hw : DocWord w) (h : v ++ t = w ++ t') : v = w ∧ t = t' := by
  obtain ⟨v1, ts, i, b, j, hg, _, rfl⟩ := hv
  obtain ⟨v2, ts', i', b', j', hg', _, rfl⟩ := hw
  simp only [List.cons_append, List.append_assoc, List.nil_append] at h
  obtain ⟨h1, h2⟩ := List.cons.inj h
  have hb := split_at_end (g_noEnd hg) (g_noEnd hg') h2
  subst hb
  obtain ⟨h3, h4⟩ := List.cons.inj (List.append_cancel_left h2)
  rw [h1, h3]
  exact ⟨rfl, h4⟩

/-- **C60**: a text has at most one list of documents. -/
theorem C60_one_list {en : Enc} {text : List Nat} {ws ws' : List (List EvData)} (h : TextDocs en text ws) (h' : TextDocs en text ws') : ws = ws' := by
  obtain ⟨⟨e, h1⟩, h2⟩ := h
  obtain ⟨⟨e', h1'⟩, h2'⟩ := h'
  have h3 := C59_one_meaning h1 h1'
  rw [List.cons_append, List.cons_append] at h3
  have h4 := (List.cons.inj h3).2
  clear h1 h1' h3
  have hne : ∀ {w : List EvData} {t : List EvData}, DocWord w → ([EvData.streamEnd] : List EvData) = w ++ t → False := by
    rintro w t ⟨_, _, _, _, _, _, _, rfl⟩ h
    cases h
  induction ws generalizing ws' with
  | nil =>
    cases ws' with
    | nil => rfl
    | cons w' ws' =>
      rw [List.flatten_cons, List.append_assoc] at h4
      exact (hne (h2' w' (.head _)) h4).elim
  | cons w ws ih =>
    cases ws' with
    | nil =>
      rw [List.flatten_cons, List.append_assoc] at h4
      exact (hne (h2 w (.head _)) h4.symm).elim
    | cons w' ws' =>
      rw [List.flatten_cons, List.append_assoc, List.flatten_cons, List.append_assoc] at h4
      obtain ⟨rfl, h5⟩ := docWord_same (h2 w (.head _)) (h2' w' (.head _)) h4
      rw [ih (fun x hx => h2 x (.tail _ hx)) (fun x hx => h2' x (.tail _ hx)) h5]

/-- **C60**: the events determine the document, positions aside. -/
theorem C60_one_document {w : List EvData} {d d' : Doc} (h : RepData w d) (h' : RepData w d') :
    d.version = d'.version ∧ d.tags = d'.tags ∧ d.startImplicit = d'.startImplicit ∧ d.endImplicit = d'.endImplicit ∧
      List.Forall₂ SameButMarks d.nodes d'.nodes := by
  obtain ⟨es, rfl, s, b, e, A, rfl, h1, _, h2, _, h3⟩ := h
  obtain ⟨es', heq, s', b', e', A', rfl, h1', _, h2', _, h3'⟩ := h'
  simp only [List.map_cons, List.cons_append, List.map_append, List.map_nil] at heq
  obtain ⟨k1, k2⟩ := List.cons.inj heq
  obtain ⟨k3, k4⟩ := List.append_inj' k2 rfl
  injection k4 with k4
  rw [h1, h1'] at k1
  rw [h2, h2'] at k4
  injection k1 with k5 k6 k7
  injection k4 with k8
  refine ⟨k5.symm, k6.symm, k7.symm, k8.symm, ?_⟩
  obtain ⟨ns, m1, m2⟩ := rep_marks h3 k3
  have hg := rep_grammar h3'
  obtain ⟨t, n1, n2⟩ := (compose_iff hg ns).mpr ⟨_, m1⟩
  obtain ⟨t', n3, n4⟩ := (compose_iff hg d'.nodes).mpr ⟨_, h3'⟩
  rw [n1] at n3
  injection n3 with n3
  subst n3
  rw [n2] at n4
  rw [← n4]
  exact m2

/-! ### A sample: `a: [b]` -/

/-- The document of `a: [b]`, positions aside. -/
def sampleDoc : Doc :=
  { startImplicit := true, endImplicit := true,
    nodes := [{ tag := mapTag, data := .mapping [(2, 3)] .block }, { tag := strTag, data := .scalar [97] .plain },
      { tag := seqTag, data := .sequence [4] .flow }, { tag := strTag, data := .scalar [98] .plain }] }

theorem sample_rep : RepData sampleEvents.tail.dropLast sampleDoc := by
  refine ⟨sampleEvents.tail.dropLast.map fun d => { data := d }, rfl, { data := .documentStart none [] true },
    [{ data := .mappingStart none none true .block }, { data := .scalar none none [97] true false .plain },
     { data := .sequenceStart none none true .flow }, { data := .scalar none none [98] true false .plain }, { data := .sequenceEnd },
     { data := .mappingEnd }], { data := .documentEnd true }, [], rfl, rfl, rfl, rfl, rfl, ?_⟩
  have hu : Unbound [] none := by intro x i h; cases h
  have b : Spec.Rep .node [] 3 [{ data := .scalar none none [98] true false .plain }] [4] [] [{ tag := strTag, data := .scalar [98] .plain }] :=
    .scalar (n := 3) (e := { data := .scalar none none [98] true false .plain }) rfl hu
  have s : Spec.Rep .node [] 2 [{ data := .sequenceStart none none true .flow }, { data := .scalar none none [98] true false .plain }, { data := .sequenceEnd }]
      [3] [] [{ tag := seqTag, data := .sequence [4] .flow }, { tag := strTag, data := .scalar [98] .plain }] :=
    .seq (n := 2) (e := { data := .sequenceStart none none true .flow }) (e' := { data := .sequenceEnd }) rfl rfl hu (.nodesCons b .nodesNil)
  have a : Spec.Rep .node [] 1 [{ data := .scalar none none [97] true false .plain }] [2] [] [{ tag := strTag, data := .scalar [97] .plain }] :=
    .scalar (n := 1) (e := { data := .scalar none none [97] true false .plain }) rfl hu
  exact .map (n := 0) (e := { data := .mappingStart none none true .block }) (e' := { data := .mappingEnd }) rfl rfl hu (.pairsCons a s .pairsNil) rfl

theorem sample_docs : TextDocs .utf8 [97, 58, 32, 91, 98, 93] [sampleEvents.tail.dropLast] := by
  refine ⟨⟨some .utf8, sample_meaning⟩, ?_⟩
  intro w hw
  rw [List.mem_singleton] at hw
  subst hw
  refine ⟨none, [], true, [.mappingStart none none true .block, .scalar none none [97] true false .plain,
    .sequenceStart none none true .flow, .scalar none none [98] true false .plain, .sequenceEnd, .mappingEnd], true, ?_, ?_, rfl⟩
  · have b : G .node [.scalar none none [98] true false .plain] := .scalar ..
    have s := G.seq none none true .flow (.nodesCons b .nodesNil)
    exact G.map none none true .block (.pairsCons (.scalar none none [97] true false .plain) s .pairsNil)
  · rw [anchored_from]
    simp [anchoredFrom_cons, anchorOf, anchoredFrom_nil]

/-- The bytes of `a: [b]` load as one document, whatever the sizes of the pieces in which they arrive. -/
example (o : Oracle) (ho : NoFail o) : ∃ d r, loadBytes (fun _ => true) o 1000 20 100 200 none sample 2 = .ok ([.doc d, .doc Doc.empty], r) ∧
    d.version = none ∧ d.tags = [] ∧ d.startImplicit = true ∧ d.endImplicit = true ∧ List.Forall₂ SameButMarks d.nodes sampleDoc.nodes := by
  have hs : Split (chosen none sample).1 (chosen none sample).2 [97, 58, 32, 91, 98, 93] [] := ⟨by decide, by decide, stuck_nil _⟩
  obtain ⟨ds, r, h1, h2⟩ := C60_complete (f := 20) (fuel := 100) (m := 200) (fun _ => true) o ho 1000 none sample (by decide) (by decide) (by decide) (by decide)
    _ hs (by decide) (shallow_of_short (by decide)) sample_docs (fun _ _ _ _ => rfl) 0
  cases h2 with
  | cons a b =>
    cases b
    exact ⟨_, r, h1, C60_one_document a sample_rep⟩

end LibYaml
