import Verif.Spec.RoundTrip
import Verif.Props.LoadText
import Verif.Props.DumperLife
import Verif.Props.EmitOutput

/-!
# Lemmas for C61: documents dumped, emitted, written and loaded
-/

namespace LibYaml

open Spec

variable {σ τ : Type}

/-! ### Composing events that are alike -/

/-- Same tag, and same contents up to style. -/
def SameContent (a b : Node) : Prop := a.tag = b.tag ∧ unstyled a.data = unstyled b.data

/-- A tag that may be left out is the default one. -/
def Honest : EvData → Prop
  | .scalar _ t _ p q _ => p = true ∨ q = true → nodeTag strTag t = strTag
  | .sequenceStart _ t i _ => i = true → nodeTag seqTag t = seqTag
  | .mappingStart _ t i _ => i = true → nodeTag mapTag t = mapTag
  | _ => True

theorem scalarTag_same {t t' : Option Text} {p q p' q' : Bool} (h : ScalarTag t p q t' p' q') (hh : p = true ∨ q = true → nodeTag strTag t = strTag) :
    nodeTag strTag t = nodeTag strTag t' := by
  rcases h with ⟨rfl, _⟩ | ⟨rfl, h⟩ | ⟨rfl, h, _⟩
  · rfl
  · rw [hh (h.imp (·.1) (·.1))]
    rfl
  · rw [hh (.inl h)]
    rfl

theorem collTag_same {dflt : Text} {t t' : Option Text} {i i' : Bool} (h : CollTag t i t' i') (hh : i = true → nodeTag dflt t = dflt) :
    nodeTag dflt t = nodeTag dflt t' := by
  rcases h with ⟨rfl, _⟩ | ⟨rfl, _, h | rfl⟩
  · rfl
  · rw [hh h]
    rfl
  · rfl

theorem forall2_split {α β : Type} {R : α → β → Prop} {u v : List α} {w : List β} (h : List.Forall₂ R (u ++ v) w) :
    ∃ w1 w2, w = w1 ++ w2 ∧ List.Forall₂ R u w1 ∧ List.Forall₂ R v w2 := by
  induction u generalizing w with
  | nil => exact ⟨[], w, rfl, .nil, h⟩
  | cons a u ih =>
    cases h with
    | cons h1 h2 =>
      obtain ⟨w1, w2, rfl, h3, h4⟩ := ih h2
      exact ⟨_ :: w1, w2, rfl, .cons h1 h3, h4⟩

/-- Two events that mean the same. -/
def AlikeE (e e' : Event) : Prop := Alike e.data e'.data

theorem rep_alike {s A n w ids A' ns} (h : Spec.Rep s A n w ids A' ns) : ∀ {w' : List Event}, (∀ e ∈ w, Honest e.data) → List.Forall₂ AlikeE w w' →
    ∃ ns', Spec.Rep s A n w' ids A' ns' ∧ List.Forall₂ SameContent ns ns' := by
  induction h with
  | «alias» he hm =>
    intro w' _ hw
    cases hw with
    | cons h1 h2 =>
      cases h2
      unfold AlikeE at h1
      rw [he] at h1
      generalize hx : Event.data _ = x at h1
      cases h1
      exact ⟨[], .alias hx hm, .nil⟩
  | scalar he hu =>
    intro w' hh hw
    cases hw with
    | cons h1 h2 =>
      cases h2
      unfold AlikeE at h1
      have hh := hh _ (.head _)
      rw [he] at h1 hh
      generalize hx : Event.data _ = x at h1
      cases h1 with
      | scalar a v s s' ht => exact ⟨_, .scalar hx hu, .cons ⟨scalarTag_same ht hh, rfl⟩ .nil⟩
  | seq he he' hu hr ih =>
    intro w' hh hw
    rw [List.cons_append] at hw
    cases hw with
    | cons h1 h2 =>
      obtain ⟨w1, w2, rfl, h3, h4⟩ := forall2_split h2
      cases h4 with
      | cons h5 h6 =>
        cases h6
        unfold AlikeE at h1 h5
        have hh1 := hh _ (.head _)
        rw [he] at h1 hh1
        rw [he'] at h5
        generalize hx : Event.data _ = x at h1
        generalize hy : Event.data _ = y at h5
        cases h5
        cases h1 with
        | sequenceStart a s s' ht =>
          obtain ⟨ns', h7, h8⟩ := ih (fun e he => hh e (by simp [he])) h3
          have hl := h8.length_eq
          exact ⟨_, .seq hx hy hu h7, .cons ⟨collTag_same ht hh1, rfl⟩ h8⟩
  | map he he' hu hr hids ih =>
    intro w' hh hw
    rw [List.cons_append] at hw
    cases hw with
    | cons h1 h2 =>
      obtain ⟨w1, w2, rfl, h3, h4⟩ := forall2_split h2
      cases h4 with
      | cons h5 h6 =>
        cases h6
        unfold AlikeE at h1 h5
        have hh1 := hh _ (.head _)
        rw [he] at h1 hh1
        rw [he'] at h5
        generalize hx : Event.data _ = x at h1
        generalize hy : Event.data _ = y at h5
        cases h5
        cases h1 with
        | mappingStart a s s' ht =>
          obtain ⟨ns', h7, h8⟩ := ih (fun e he => hh e (by simp [he])) h3
          exact ⟨_, .map hx hy hu h7 hids, .cons ⟨collTag_same ht hh1, rfl⟩ h8⟩
  | nodesNil =>
    intro w' _ hw
    cases hw
    exact ⟨[], .nodesNil, .nil⟩
  | nodesCons _ _ ih1 ih2 =>
    intro w' hh hw
    obtain ⟨w1, w2, rfl, h3, h4⟩ := forall2_split hw
    obtain ⟨ns1, h5, h6⟩ := ih1 (fun e he => hh e (by simp [he])) h3
    obtain ⟨ns2, h7, h8⟩ := ih2 (fun e he => hh e (by simp [he])) h4
    rw [h6.length_eq] at h7
    exact ⟨_, .nodesCons h5 h7, List.rel_append h6 h8⟩
  | pairsNil =>
    intro w' _ hw
    cases hw
    exact ⟨[], .pairsNil, .nil⟩
  | pairsCons _ _ _ ih1 ih2 ih3 =>
    intro w' hh hw
    obtain ⟨w1, w2, rfl, h3, h4⟩ := forall2_split hw
    obtain ⟨w3, w4, rfl, h5, h6⟩ := forall2_split h4
    obtain ⟨ns1, a1, a2⟩ := ih1 (fun e he => hh e (by simp [he])) h3
    obtain ⟨ns2, b1, b2⟩ := ih2 (fun e he => hh e (by simp [he])) h5
    obtain ⟨ns3, c1, c2⟩ := ih3 (fun e he => hh e (by simp [he])) h6
    rw [a2.length_eq] at b1
    rw [a2.length_eq, b2.length_eq] at c1
    exact ⟨_, .pairsCons a1 b1 c1, List.rel_append a2 (List.rel_append b2 c2)⟩

theorem iso_content {nodes ns ns' : List Node} {pos : Nat → Nat} (h : IsoFrom nodes ns pos) (hs : List.Forall₂ SameContent ns ns') :
    IsoContent nodes ns' pos := by
  obtain ⟨h1, h2, h3, h4⟩ := h
  refine ⟨h1, h2, fun k hk hl => h3 k hk (by rw [hs.length_eq]; exact hl), fun i hi => ?_⟩
  obtain ⟨k1, nd, nd', k2, k3, k4, k5⟩ := h4 i hi
  obtain ⟨hl, hg⟩ := List.getElem?_eq_some_iff.mp k3
  have hl' : pos i - 1 < ns'.length := by rw [← hs.length_eq]; exact hl
  have := (List.forall₂_iff_get.mp hs).2 (pos i - 1) hl hl'
  rw [List.get_eq_getElem, List.get_eq_getElem, hg] at this
  refine ⟨k1, nd, ns'[pos i - 1], k2, List.getElem?_eq_getElem hl', ?_, ?_⟩
  · rw [← this.2, k4]
  · rw [← this.1, k5]

/-! ### The events of a dumped document -/

theorem step_event {d : Doc} {w : List Spec.Step} {S : List Nat} (hw : NodeWalk d.nodes [] [1] w S) {e : EvData} (he : e ∈ walkEvents d.nodes (dumpName w) w) :
    (∃ i x, dumpName w i = some x ∧ e = .alias x) ∨ e = .sequenceEnd ∨ e = .mappingEnd ∨
    ∃ i nd, NodeReach d.nodes [1] i ∧ d.nodes[i - 1]? = some nd ∧
      ((∃ v st, nd.data = .scalar v st ∧ e = .scalar (dumpName w i) (some nd.tag) v (decide (nd.tag = strTag)) (decide (nd.tag = strTag)) st) ∨
       (∃ is st, nd.data = .sequence is st ∧ e = .sequenceStart (dumpName w i) (some nd.tag) (decide (nd.tag = seqTag)) st) ∨
       ∃ ps st, nd.data = .mapping ps st ∧ e = .mappingStart (dumpName w i) (some nd.tag) (decide (nd.tag = mapTag)) st) := by
  unfold walkEvents at he
  obtain ⟨s, hs, h⟩ := List.mem_filterMap.mp he
  have hreach := walk_reach_iff hw
  have hleaf : ∀ {w : List Spec.Step} {i}, .leaf i ∈ w → i ∈ fulls w := by
    intro w i h
    induction w with
    | nil => cases h
    | cons s w ih =>
      rcases List.mem_cons.mp h with rfl | h
      · exact .head _
      · have := ih h
        cases s <;> simp [fulls, this]
  have henter : ∀ {w : List Spec.Step} {i}, .enter i ∈ w → i ∈ fulls w := by
    intro w i h
    induction w with
    | nil => cases h
    | cons s w ih =>
      rcases List.mem_cons.mp h with rfl | h
      · exact .head _
      · have := ih h
        cases s <;> simp [fulls, this]
  cases s with
  | again i =>
    left
    replace h : (dumpName w i).map EvData.alias = some e := h
    cases hn : dumpName w i with
    | none => rw [hn] at h; cases h
    | some x =>
      rw [hn] at h
      injection h with h
      exact ⟨i, x, hn, h.symm⟩
  | leaf i =>
    right; right; right
    unfold stepEvent at h
    dsimp only at h
    split at h
    · rename_i t v st _ _ hnd
      injection h with h
      exact ⟨i, _, (hreach i).mp (hleaf hs), hnd, .inl ⟨v, st, rfl, h.symm⟩⟩
    · cases h
  | enter i =>
    right; right; right
    unfold stepEvent at h
    dsimp only at h
    split at h
    · rename_i t is st _ _ hnd
      injection h with h
      exact ⟨i, _, (hreach i).mp (henter hs), hnd, .inr (.inl ⟨is, st, rfl, h.symm⟩)⟩
    · rename_i t ps st _ _ hnd
      injection h with h
      exact ⟨i, _, (hreach i).mp (henter hs), hnd, .inr (.inr ⟨ps, st, rfl, h.symm⟩)⟩
    · cases h
  | leave i =>
    right
    unfold stepEvent at h
    dsimp only at h
    split at h
    · injection h with h; exact .inl h.symm
    · injection h with h; exact .inr (.inl h.symm)
    · cases h

theorem walk_honest {d : Doc} {w : List Spec.Step} {S : List Nat} (hw : NodeWalk d.nodes [] [1] w S) {e : EvData} (he : e ∈ walkEvents d.nodes (dumpName w) w) :
    Honest e := by
  have key : ∀ (t dflt : Text), dflt ≠ [0x21] → t = dflt → nodeTag dflt (some t) = dflt := by
    rintro t dflt h rfl
    unfold nodeTag
    dsimp only
    rw [if_neg h]
  rcases step_event hw he with ⟨i, x, _, rfl⟩ | rfl | rfl | ⟨i, nd, _, _, ⟨v, st, _, rfl⟩ | ⟨is, st, _, rfl⟩ | ⟨ps, st, _, rfl⟩⟩
  · trivial
  · trivial
  · trivial
  · intro h
    rcases h with h | h <;> exact key _ _ (by decide) (of_decide_eq_true h)
  · intro h
    exact key _ _ (by decide) (of_decide_eq_true h)
  · intro h
    exact key _ _ (by decide) (of_decide_eq_true h)

theorem dumpName_name {d : Doc} {w : List Spec.Step} {S : List Nat} (hw : NodeWalk d.nodes [] [1] w S) (hmax : d.nodes.length ≤ 2147483647)
    {i : Nat} {x : Text} (h : dumpName w i = some x) : Name x := by
  obtain ⟨_, h2, h3⟩ := (C37_anchors hw hmax).2.2.2.2 i x h
  refine ⟨h2, fun c hc => ?_⟩
  rcases h3 c hc with h | h | h
  · exact .inl h
  · exact .inr (.inl h)
  · exact .inr (.inr (.inl h))

theorem walk_good {d : Doc} (hd : Dumpable d) {w : List Spec.Step} {S : List Nat} (hw : NodeWalk d.nodes [] [1] w S) (ca : Bool) {e : EvData}
    (he : e ∈ walkEvents d.nodes (dumpName w) w) : GoodEvent ca e ∧ Writable d.tags e := by
  rcases step_event hw he with ⟨i, x, hx, rfl⟩ | rfl | rfl | ⟨i, nd, hr, hnd, ⟨v, st, hv, rfl⟩ | ⟨is, st, _, rfl⟩ | ⟨ps, st, _, rfl⟩⟩
  · exact ⟨dumpName_name hw hd.small hx, trivial⟩
  · exact ⟨trivial, trivial⟩
  · exact ⟨trivial, trivial⟩
  · obtain ⟨h1, h2⟩ := hd.tag i nd hr hnd
    obtain ⟨h3, h4⟩ := hd.value i nd v st hr hnd hv
    exact ⟨⟨fun x hx => dumpName_name hw hd.small hx, fun _ => by simpa using h1, fun h => by cases h⟩, h2, h3, h4⟩
  · obtain ⟨h1, h2⟩ := hd.tag i nd hr hnd
    exact ⟨⟨fun x hx => dumpName_name hw hd.small hx, fun _ => by simpa using h1⟩, h2⟩
  · obtain ⟨h1, h2⟩ := hd.tag i nd hr hnd
    exact ⟨⟨fun x hx => dumpName_name hw hd.small hx, fun _ => by simpa using h1⟩, h2⟩

/-- No document begins in the body of a document. -/
theorem walk_no_start {d : Doc} {w : List Spec.Step} {S : List Nat} (hw : NodeWalk d.nodes [] [1] w S) (v ts i) :
    .documentStart v ts i ∉ walkEvents d.nodes (dumpName w) w := by
  intro he
  rcases step_event hw he with ⟨i, x, hx, h⟩ | h | h | ⟨i, nd, hr, hnd, ⟨v, st, hv, h⟩ | ⟨is, st, _, h⟩ | ⟨ps, st, _, h⟩⟩ <;> cases h

theorem walk_no_end {d : Doc} {w : List Spec.Step} {S : List Nat} (hw : NodeWalk d.nodes [] [1] w S) (j) :
    .documentEnd j ∉ walkEvents d.nodes (dumpName w) w := by
  intro he
  rcases step_event hw he with ⟨i, x, hx, h⟩ | h | h | ⟨i, nd, hr, hnd, ⟨v, st, hv, h⟩ | ⟨is, st, _, h⟩ | ⟨ps, st, _, h⟩⟩ <;> cases h

theorem dumped_good {ds : List Doc} {es : List EvData} (h : DumpedDocs ds es) (hds : ∀ d ∈ ds, Dumpable d) (ca : Bool) : ∀ e ∈ es, GoodEvent ca e := by
  induction h with
  | nil => intro e he; cases he
  | @cons d ds w S es hw _ ih =>
    intro e he
    have hd := hds d (.head _)
    rcases List.mem_append.mp he with he | he
    · unfold docEvents at he
      rw [List.cons_append, List.mem_cons, List.mem_append, List.mem_singleton] at he
      rcases he with rfl | he | rfl
      · exact ⟨hd.version, hd.directives⟩
      · exact (walk_good hd hw ca he).1
      · trivial
    · exact ih (fun d hd => hds d (.tail _ hd)) e he

/-- What follows the beginning of a document in a dump. -/
theorem dumped_start {ds : List Doc} {es : List EvData} (h : DumpedDocs ds es) {t a r : List EvData} {v T i} (ht : ∀ v T i, .documentStart v T i ∉ t)
    (heq : es ++ t = a ++ .documentStart v T i :: r) :
    ∃ d ∈ ds, ∃ w S j r', NodeWalk d.nodes [] [1] w S ∧ v = d.version ∧ T = d.tags ∧ r = walkEvents d.nodes (dumpName w) w ++ .documentEnd j :: r' := by
  induction h generalizing a with
  | nil => exact absurd (by rw [List.nil_append] at heq; rw [heq]; simp) (ht v T i)
  | @cons d ds w S es hw _ ih =>
    unfold docEvents at heq
    simp only [List.cons_append, List.append_assoc, List.nil_append] at heq
    cases a with
    | nil =>
      injection heq with h1 h2
      injection h1 with h3 h4 h5
      exact ⟨d, .head _, w, S, _, _, hw, h3.symm, h4.symm, h2.symm⟩
    | cons x a =>
      injection heq with h1 h2
      rcases List.append_eq_append_iff.mp h2 with ⟨a', k1, k2⟩ | ⟨c, k1, k2⟩
      · cases a' with
        | nil => cases k2
        | cons y a' =>
          injection k2 with k3 k4
          obtain ⟨d', hd', k5⟩ := ih k4
          exact ⟨d', .tail _ hd', k5⟩
      · cases c with
        | nil => cases k2
        | cons y c =>
          injection k2 with k3 k4
          subst k3
          exact absurd (by rw [k1]; simp) (walk_no_start hw v T i)

theorem dumped_readable {ds : List Doc} {es : List EvData} (h : DumpedDocs ds es) (hds : ∀ d ∈ ds, Dumpable d) (ca : Bool)
    (hfirst : ca = false → ∀ d, ds.head? = some d → ¬ Invisible d) : Readable ca (.streamStart none :: es ++ [.streamEnd]) := by
  refine ⟨⟨none, es, dumped_docs h, rfl⟩, ?_, ?_, ?_⟩
  · intro e he
    rw [List.cons_append, List.mem_cons, List.mem_append, List.mem_singleton] at he
    rcases he with rfl | he | rfl
    · trivial
    · exact dumped_good h hds ca e he
    · trivial
  · rintro T e ⟨a, v, i, r, h1, h2⟩
    cases a with
    | nil => cases h1
    | cons x a =>
      rw [List.cons_append] at h1
      obtain ⟨_, h1⟩ := List.cons.inj h1
      obtain ⟨d, hd, w, S, j, r', k1, k2, k3, k4⟩ := dumped_start h (t := [.streamEnd]) (by simp) h1
      subst k2 k3 k4
      have hdd := hds d hd
      rcases h2 with rfl | ⟨b, c, h3, h4⟩
      · exact hdd.prefixes
      · rcases List.append_eq_append_iff.mp h3 with ⟨a', m1, m2⟩ | ⟨c', m1, m2⟩
        · cases a' with
          | nil =>
            injection m2 with m2 _
            subst m2
            trivial
          | cons y a' =>
            injection m2 with m2 _
            subst m2
            exact absurd (by rw [m1]; simp) (h4 j)
        · cases c' with
          | nil =>
            injection m2 with m2 _
            subst m2
            trivial
          | cons y c' =>
            injection m2 with m2 _
            subst m2
            exact (walk_good hdd k1 ca (by rw [m1]; simp)).2
  · rintro hca ⟨enc, t, q, st, r, hst, heq⟩
    rw [List.cons_append] at heq
    obtain ⟨_, heq⟩ := List.cons.inj heq
    cases h with
    | nil => cases heq
    | @cons d ds w S es hw h' =>
      unfold docEvents at heq
      simp only [List.cons_append, List.append_assoc, List.nil_append] at heq
      obtain ⟨h1, h2⟩ := List.cons.inj heq
      injection h1 with h3 h4 h5
      refine hfirst hca d rfl ⟨h5, h3, h4, ?_⟩
      cases hw with
      | again hi => cases hi
      | @leaf _ _ _ nd _ _ h6 h7 h8 h9 h10 =>
        rcases nd with ⟨tg, dd, m1, m2⟩
        cases dd with
        | sequence is st => exact absurd trivial h9
        | mapping is st => exact absurd trivial h9
        | scalar v st' =>
          simp only [walkEvents, stepEvent, h8, List.filterMap_cons, List.cons_append] at h2
          obtain ⟨h11, _⟩ := List.cons.inj h2
          injection h11 with _ h12 h13 h14 h15 h16
          subst h13 h16
          exact ⟨_, _, h8, of_decide_eq_true h14, rfl, hst⟩
      | @coll _ _ _ nd c w _ _ h6 h7 h8 h9 h10 h11 =>
        rcases nd with ⟨tg, dd, m1, m2⟩
        cases dd with
        | scalar v st' => exact absurd h9 id
        | sequence is st => 
          simp only [walkEvents, stepEvent, h8, List.filterMap_cons, List.cons_append] at h2
          obtain ⟨h11, _⟩ := List.cons.inj h2
          cases h11
        | mapping is st => 
          simp only [walkEvents, stepEvent, h8, List.filterMap_cons, List.cons_append] at h2
          obtain ⟨h11, _⟩ := List.cons.inj h2
          cases h11

/-! ### Loading events that are alike -/

theorem alike_doc {d : Doc} {w : List Spec.Step} {S : List Nat} (hw : NodeWalk d.nodes [] [1] w S) {es : List Event}
    (h : List.Forall₂ Alike (docEvents d (dumpName w) w) (es.map Event.data)) :
    DocEvs es ∧ ∀ d', RepDoc es d' → SameDoc d d' := by
  rw [List.forall₂_map_right_iff] at h
  unfold docEvents at h
  rw [List.cons_append] at h
  cases h with
  | @cons _ s _ t h1 h2 =>
    obtain ⟨b, c, rfl, h3, h4⟩ := forall2_split h2
    cases h4 with
    | @cons _ e _ _ h5 h6 =>
      cases h6
      generalize hx : s.data = x at h1
      generalize hy : e.data = y at h5
      cases h1 with
      | documentStart v ts i i' =>
        cases h5 with
        | documentEnd j j' =>
          obtain ⟨s0, hc, hiso⟩ := C38_dump_then_compose hw (es := evs (walkEvents d.nodes (dumpName w) w)) (evs_data _) allRoom (fun _ _ => rfl)
          have hg : G .node ((evs (walkEvents d.nodes (dumpName w) w)).map Event.data) := by
            obtain ⟨A, hr⟩ := dump_rep hw
            exact rep_grammar hr
          obtain ⟨A, hr⟩ := (compose_iff hg s0.nodes).mp ⟨s0, hc, rfl⟩
          have hal : List.Forall₂ AlikeE (evs (walkEvents d.nodes (dumpName w) w)) b := by
            unfold evs
            rw [List.forall₂_map_left_iff]
            exact h3
          obtain ⟨ns', k1, k2⟩ := rep_alike hr (fun e he => by
            unfold evs at he
            obtain ⟨x, hx, rfl⟩ := List.mem_map.mp he
            exact walk_honest hw hx) hal
          have hg' := rep_grammar k1
          refine ⟨repDoc_word (d := { nodes := ns', version := d.version, tags := d.tags, startImplicit := i', endImplicit := j', start := s.start, stop := e.stop })
            ⟨s, b, e, A, rfl, hx, rfl, hy, rfl, k1⟩, ?_⟩
          rintro d' ⟨s', b', e', A', heq, m1, _, m2, _, m3⟩
          rw [List.cons_append] at heq
          obtain ⟨q1, q2⟩ := List.cons.inj heq
          obtain ⟨q3, q4⟩ := List.append_inj' q2 rfl
          injection q4 with q4
          subst q1 q3 q4
          rw [hx] at m1
          injection m1 with m4 m5 m6
          refine ⟨m4.symm, m5.symm, _, iso_content hiso ?_⟩
          obtain ⟨t1, n1, n2⟩ := (compose_iff hg' ns').mpr ⟨_, k1⟩
          obtain ⟨t2, n3, n4⟩ := (compose_iff hg' d'.nodes).mpr ⟨_, m3⟩
          rw [n1] at n3
          injection n3 with n3
          subst n3
          rw [← n4, n2]
          exact k2

theorem alike_docs {ds : List Doc} {es : List EvData} (h : DumpedDocs ds es) {es' : List Event} (ha : List.Forall₂ Alike es (es'.map Event.data)) :
    ∃ ws : List (List Event), es' = ws.flatten ∧ List.Forall₂ (fun d w => DocEvs w ∧ ∀ d', RepDoc w d' → SameDoc d d') ds ws := by
  induction h generalizing es' with
  | nil =>
    generalize hx : es'.map Event.data = x at ha
    cases ha
    rw [List.map_eq_nil_iff] at hx
    exact ⟨[], hx, .nil⟩
  | @cons d ds w S es hw _ ih =>
    rw [List.forall₂_map_right_iff] at ha
    obtain ⟨e1, e2, rfl, h1, h2⟩ := forall2_split ha
    obtain ⟨ws, rfl, h3⟩ := ih (List.forall₂_map_right_iff.mpr h2)
    exact ⟨e1 :: ws, rfl, .cons (alike_doc hw (List.forall₂_map_right_iff.mpr h1)) h3⟩

end LibYaml
