import Verif.Proofs.DumperRun

/-!
# Properties C36–C38: the dumper

For all documents whose ids denote nodes (`GraphOk`), shared and cyclic ones included, and for every emitter (`emit` says for each event
whether the emitter accepted it). `NodeWalk` is the pre-order walk over the graph.
-/

namespace LibYaml

open Spec

variable {τ : Type}

/-! ### Facts about the order of steps -/

/-- References to nodes met before come after them, new nodes are new. -/
def StepsOk (S : List Nat) : List Step → Prop
  | [] => True
  | .again i :: w => i ∈ S ∧ StepsOk S w
  | .leaf i :: w => i ∉ S ∧ StepsOk (i :: S) w
  | .enter i :: w => i ∉ S ∧ StepsOk (i :: S) w
  | .leave _ :: w => StepsOk S w

theorem stepsOk_append (S : List Nat) (v w : List Step) : StepsOk S (v ++ w) ↔ StepsOk S v ∧ StepsOk ((fulls v).reverse ++ S) w := by
  induction v generalizing S with
  | nil => simp [StepsOk, fulls]
  | cons s v ih => cases s <;> simp [StepsOk, fulls, ih, and_assoc]

theorem walk_ok {nodes S ids w S'} (h : NodeWalk nodes S ids w S') : StepsOk S w := by
  induction h with
  | nil => trivial
  | again hi _ ih => exact ⟨hi, ih⟩
  | leaf _ hi _ _ _ ih => exact ⟨hi, ih⟩
  | coll _ hi _ _ h1 _ ih1 ih2 =>
    refine ⟨hi, (stepsOk_append _ _ _).mpr ⟨ih1, ?_⟩⟩
    rw [walk_seen h1] at ih2
    exact ih2

/-- Each step gives one event, if the nodes met again have names. -/
theorem walk_events_length {nodes S ids w S'} (h : NodeWalk nodes S ids w S') (name : Nat → Option Text)
    (hn : ∀ i, .again i ∈ w → (name i).isSome = true) : (walkEvents nodes name w).length = w.length := by
  induction h with
  | nil => rfl
  | again hi _ ih =>
    obtain ⟨x, hx⟩ := Option.isSome_iff_exists.mp (hn _ (.head _))
    simpa [walkEvents, stepEvent, hx] using ih fun i hi => hn i (.tail _ hi)
  | @leaf S i is nd w S' _ hi hnd hc _ ih =>
    rcases nd with ⟨t, d, _, _⟩
    have ih := ih fun i hi => hn i (.tail _ hi)
    cases d with
    | scalar => simpa [walkEvents, stepEvent, hnd] using ih
    | sequence => exact absurd trivial hc
    | mapping => exact absurd trivial hc
  | @coll S i is nd k w S1 S' _ hi hnd hc _ _ ih1 ih2 =>
    rcases nd with ⟨t, d, _, _⟩
    have ih1 := ih1 fun i hi => hn i (.tail _ (List.mem_append_left _ hi))
    have ih2 := ih2 fun i hi => hn i (.tail _ (List.mem_append_right _ (.tail _ hi)))
    unfold walkEvents at ih1 ih2
    cases d with
    | scalar => exact absurd hc (by simp [isColl])
    | sequence => simp [walkEvents, stepEvent, hnd, ih1, ih2]
    | mapping => simp [walkEvents, stepEvent, hnd, ih1, ih2]

/-- The anchor the dumper gives to node `i`: numbers in the order in which second references are met. -/
def dumpName (w : List Step) (i : Nat) : Option Text := idText (number (twice [] (refs w)) i)

theorem again_count {nodes ids w S'} (h : NodeWalk nodes [] ids w S') {i : Nat} (hi : .again i ∈ w) : 2 ≤ (refs w).count i := by
  obtain ⟨u, v, rfl⟩ := List.append_of_mem hi
  have h1 := ((stepsOk_append _ _ _).mp (walk_ok h)).2
  have h2 : i ∈ fulls u := by simpa using h1.1
  rw [refs_append, List.count_append]
  have h3 : 0 < (refs u).count i := List.count_pos_iff.mpr (fulls_sub_refs u i h2)
  simp only [refs, List.count_cons_self]
  omega

theorem again_number {nodes ids w S'} (h : NodeWalk nodes [] ids w S') {i : Nat} (hi : .again i ∈ w) : number (twice [] (refs w)) i ≠ 0 :=
  (number_pos _ _).mpr ((mem_twice _ _).mpr (again_count h hi))

theorem idText_some (k : Nat) : (idText k).isSome = true ↔ k ≠ 0 := by
  unfold idText; split <;> simp_all

theorem idText_inj {a b : Nat} {x : Text} (ha : idText a = some x) (hb : idText b = some x) : a = b ∧ a ≠ 0 := by
  unfold idText at ha hb
  split at ha
  · cases ha
  split at hb
  · cases hb
  next h _ =>
    rw [← hb] at ha
    exact ⟨generateAnchor_inj (Option.some.inj ha), h⟩

/-- The walk from the root. -/
theorem root_walk {nodes : List Node} (hg : GraphOk nodes) (hne : nodes ≠ []) : ∃ w S, NodeWalk nodes [] [1] w S :=
  walk_exists hg nodes.length [] [1] (by simp) .nil (by simp) (by
    intro i hi
    rw [List.mem_singleton] at hi
    have : nodes.length ≠ 0 := by simpa using hne
    omega)

/-! ### C36 -/

/-- C36. Dumping a document ends, and there is a walk `w` over the document from its root, in pre-order, such that: every node that can be
reached is met in full exactly once, everything else in the walk is a reference to a node met in full earlier, and `yaml_emitter_dump`
gives exactly the events of the walk, between DOCUMENT-START and DOCUMENT-END, to the emitter, one event for each step, in order, up to the
first one the emitter refuses; it succeeds iff none is refused. A depth of recursion of the number of nodes plus one suffices. -/
theorem C36_dump_follows_the_walk {d : Doc} (hg : GraphOk d.nodes) (hne : d.nodes ≠ []) :
    ∃ w S, NodeWalk d.nodes [] [1] w S ∧ (∀ w' S', NodeWalk d.nodes [] [1] w' S' → w' = w) ∧
      (fulls w).Nodup ∧ (∀ i, i ∈ fulls w ↔ NodeReach d.nodes [1] i) ∧ (∀ u i v, w = u ++ .again i :: v → i ∈ fulls u) ∧
      (walkEvents d.nodes (dumpName w) w).length = w.length ∧
      ∀ (emit : Event → τ → Bool × τ) (fuel : Nat) (s : Dumper τ), d.nodes.length < fuel → s.opened = true → s.last = 0 →
        dump emit fuel d s = .ok ((feedEvs emit (docEvents d (dumpName w) w) s.out).1,
          { s with out := (feedEvs emit (docEvents d (dumpName w) w) s.out).2 }) := by
  obtain ⟨w, S, hw⟩ := root_walk hg hne
  have hS : S = (fulls w).reverse := by simpa using walk_seen hw
  refine ⟨w, S, hw, fun w' S' h' => (walk_unique h' hw).1, ?_, walk_reach_iff hw, ?_, ?_, ?_⟩
  · have := walk_nodup hw .nil
    rw [hS] at this
    exact (List.reverse_perm _).nodup_iff.mp this
  · rintro u i v rfl
    simpa using ((stepsOk_append _ _ _).mp (walk_ok hw)).2.1
  · exact walk_events_length hw _ fun i hi => (idText_some _).mpr (again_number hw hi)
  · intro emit fuel ⟨op, cl, la, ou⟩ hf ho hl
    simp only at ho hl
    subst ho hl
    have ha := anchor_walk hw [] fuel (by simpa using hf) .nil (by simp) (by simp)
    rw [aState_nil] at ha
    have ha' : anchorNode d.nodes fuel 1 { anchors := List.replicate d.nodes.length {}, last := 0 } = .ok (aState d.nodes.length (refs w)) := by
      simp only [forItems, List.nil_append] at ha
      cases h : anchorNode d.nodes fuel 1 { anchors := List.replicate d.nodes.length {}, last := 0 } with
      | error e => rw [h] at ha; cases ha
      | ok a => rw [h] at ha; exact ha
    have htab : (aState d.nodes.length (refs w)).anchors =
        dTab d.nodes.length (fun i => (refs w).count i) (number (twice [] (refs w))) [] := by
      simp [aState, dTab]
    have hd := dump_walk hw emit (fun i => (refs w).count i) (number (twice [] (refs w))) (fun i hi => again_number hw hi) fuel
      (by simpa using hf) .nil (by simp)
    have hev : walkEvents d.nodes (dumpName w) w = walkEvs d.nodes (number (twice [] (refs w))) w := rfl
    unfold dump
    simp only [if_true, if_neg hne]
    unfold dumpNodes docEvents
    rw [List.cons_append]
    simp only [feedEvs]
    rcases emit { data := .documentStart d.version d.tags d.startImplicit } ou with ⟨b, o1⟩
    cases b with
    | false => rfl
    | true =>
      simp only [ha', htab]
      rw [feedEvs_append, hev]
      obtain ⟨s1, h1, h2, _⟩ := hd o1
      have h1' : dumpNode emit d.nodes fuel 1 { anchors := dTab d.nodes.length (fun i => (refs w).count i) (number (twice [] (refs w))) [], out := o1 } =
          .ok ((feedEvs emit (walkEvs d.nodes (number (twice [] (refs w))) w) o1).1, s1) := by
        simp only [dumpItems] at h1
        rcases h : dumpNode emit d.nodes fuel 1 { anchors := dTab d.nodes.length (fun i => (refs w).count i) (number (twice [] (refs w))) [], out := o1 } with e | ⟨b, s2⟩
        · rw [h] at h1; cases h1
        · rw [h] at h1; cases b <;> exact h1
      rw [h1']
      rcases hf : feedEvs emit (walkEvs d.nodes (number (twice [] (refs w))) w) o1 with ⟨b, o2⟩
      rw [hf] at h2
      simp only at h2
      cases b with
      | false => subst h2; rfl
      | true =>
        simp only [feedEvs, h2]
        rcases emit { data := .documentEnd d.endImplicit } o2 with ⟨b, o3⟩
        cases b <;> rfl

/-- C36, before: the first call sends STREAM-START. -/
theorem C36_first_dump (emit : Event → τ → Bool × τ) (fuel : Nat) (d : Doc) (s : Dumper τ) (ho : s.opened = false) :
    dump emit fuel d s = match emit { data := .streamStart none } s.out with
      | (true, o) => dump emit fuel d { s with opened := true, out := o }
      | (false, o) => .ok (false, { s with out := o }) := by
  unfold dump dOpen
  simp only [ho, Bool.false_eq_true, if_false, if_true]
  rcases emit { data := .streamStart none } s.out with ⟨b, o⟩
  cases b <;> rfl

/-! ### C37 -/

/-- C37. In the walk `w` over a document of at most `INT_MAX` nodes: the references met are the root and the children of all nodes that can be
reached; a node has an anchor iff it is referenced at least twice; distinct nodes have distinct anchors; what is met again is named, and was
met in full before; the texts fit into the 16 bytes allocated for them, NUL included, and consist of letters and digits. -/
theorem C37_anchors {d : Doc} {w : List Step} {S : List Nat} (hw : NodeWalk d.nodes [] [1] w S) (hmax : d.nodes.length ≤ 2147483647) :
    (refs w).Perm (1 :: (fulls w).flatMap (kidsOf d.nodes)) ∧
    (∀ i, (dumpName w i).isSome = true ↔ 2 ≤ (refs w).count i) ∧
    (∀ i j x, dumpName w i = some x → dumpName w j = some x → i = j) ∧
    (∀ u i v, w = u ++ .again i :: v → i ∈ fulls u ∧ (dumpName w i).isSome = true) ∧
    ∀ i x, dumpName w i = some x → x.length + 1 ≤ 16 ∧ x ≠ [] ∧
      ∀ c ∈ x, (48 ≤ c ∧ c ≤ 57) ∨ (65 ≤ c ∧ c ≤ 90) ∨ (97 ≤ c ∧ c ≤ 122) := by
  refine ⟨walk_perm hw, ?_, ?_, ?_, ?_⟩
  · intro i
    unfold dumpName
    rw [idText_some, number_pos, mem_twice]
  · intro i j x hi hj
    obtain ⟨h1, h2⟩ := idText_inj hi hj
    exact number_inj h1 h2
  · rintro u i v rfl
    exact ⟨by simpa using ((stepsOk_append _ _ _).mp (walk_ok hw)).2.1,
      (idText_some _).mpr (again_number hw (List.mem_append_right _ (.head _)))⟩
  · intro i x hx
    have hle : number (twice [] (refs w)) i ≤ 2147483647 := by
      refine Nat.le_trans (number_le _ _) (Nat.le_trans (nodup_length (N := d.nodes.length) (twice_nodup _) ?_) hmax)
      intro j hj
      have hc := (mem_twice _ _).mp hj
      have hm : j ∈ refs w := List.count_pos_iff.mp (by omega)
      exact walk_valid hw (by simp) j ((walk_refs hw j).mpr (.inr hm))
    unfold dumpName idText at hx
    split at hx
    · cases hx
    · cases hx
      exact ⟨generateAnchor_length hle, generateAnchor_chars _⟩

/-! ### C38 -/

/-- Same tag and contents. -/
def SameButMarks (a b : Node) : Prop := a.tag = b.tag ∧ a.data = b.data

/-- Marks do not matter for representation. -/
theorem rep_marks {s A n w ids A' ns} (h : Rep s A n w ids A' ns) : ∀ {w' : List Event}, w'.map Event.data = w.map Event.data →
    ∃ ns', Rep s A n w' ids A' ns' ∧ List.Forall₂ SameButMarks ns ns' := by
  induction h with
  | «alias» he hm =>
    intro w' hw
    obtain ⟨e', rfl, h1⟩ := List.map_eq_singleton_iff.mp hw
    exact ⟨[], .alias (h1.trans he) hm, .nil⟩
  | scalar he hu =>
    intro w' hw
    obtain ⟨e', rfl, h1⟩ := List.map_eq_singleton_iff.mp hw
    exact ⟨_, .scalar (h1.trans he) hu, .cons ⟨rfl, rfl⟩ .nil⟩
  | seq he he' hu _ ih =>
    intro w' hw
    rw [List.map_append, List.map_cons] at hw
    obtain ⟨w1, l2, rfl, hw1, hl2⟩ := List.map_eq_append_iff.mp hw
    obtain ⟨e1, w2, rfl, h1, hw2⟩ := List.map_eq_cons_iff.mp hw1
    obtain ⟨e2, rfl, h2⟩ := List.map_eq_singleton_iff.mp hl2
    obtain ⟨ns', h3, h4⟩ := ih hw2
    exact ⟨_, .seq (h1.trans he) (h2.trans he') hu h3, .cons ⟨rfl, rfl⟩ h4⟩
  | map he he' hu _ hp ih =>
    intro w' hw
    rw [List.map_append, List.map_cons] at hw
    obtain ⟨w1, l2, rfl, hw1, hl2⟩ := List.map_eq_append_iff.mp hw
    obtain ⟨e1, w2, rfl, h1, hw2⟩ := List.map_eq_cons_iff.mp hw1
    obtain ⟨e2, rfl, h2⟩ := List.map_eq_singleton_iff.mp hl2
    obtain ⟨ns', h3, h4⟩ := ih hw2
    exact ⟨_, .map (h1.trans he) (h2.trans he') hu h3 hp, .cons ⟨rfl, rfl⟩ h4⟩
  | nodesNil =>
    intro w' hw
    cases List.map_eq_nil_iff.mp hw
    exact ⟨[], .nodesNil, .nil⟩
  | nodesCons _ _ ih1 ih2 =>
    intro w' hw
    rw [List.map_append] at hw
    obtain ⟨w1, w2, rfl, hw1, hw2⟩ := List.map_eq_append_iff.mp hw
    obtain ⟨ns1, h1, h2⟩ := ih1 hw1
    obtain ⟨ns2, h3, h4⟩ := ih2 hw2
    rw [h2.length_eq] at h3
    exact ⟨_, .nodesCons h1 h3, List.rel_append h2 h4⟩
  | pairsNil =>
    intro w' hw
    cases List.map_eq_nil_iff.mp hw
    exact ⟨[], .pairsNil, .nil⟩
  | pairsCons _ _ _ ih1 ih2 ih3 =>
    intro w' hw
    rw [List.map_append, List.map_append] at hw
    obtain ⟨w1, w2, rfl, hw1, hw2⟩ := List.map_eq_append_iff.mp hw
    obtain ⟨w2, w3, rfl, hw2, hw3⟩ := List.map_eq_append_iff.mp hw2
    obtain ⟨ns1, h1, h2⟩ := ih1 hw1
    obtain ⟨ns2, h3, h4⟩ := ih2 hw2
    obtain ⟨ns3, h5, h6⟩ := ih3 hw3
    rw [h2.length_eq] at h3 h5
    rw [h4.length_eq] at h5
    exact ⟨_, .pairsCons h1 h3 h5, List.rel_append h2 (List.rel_append h4 h6)⟩

/-- What is represented is grammatical. -/
theorem rep_grammar {s A n w ids A' ns} (h : Rep s A n w ids A' ns) : G s (w.map Event.data) := by
  induction h with
  | «alias» he _ => rw [List.map_singleton, he]; exact .alias _
  | scalar he _ => rw [List.map_singleton, he]; exact .scalar ..
  | seq he he' _ _ ih =>
    rw [List.map_append, List.map_cons, List.map_singleton, he, he']
    exact .seq _ _ _ _ ih
  | map he he' _ _ _ ih =>
    rw [List.map_append, List.map_cons, List.map_singleton, he, he']
    exact .map _ _ _ _ ih
  | nodesNil => exact .nodesNil
  | nodesCons _ _ ih1 ih2 => rw [List.map_append]; exact .nodesCons ih1 ih2
  | pairsNil => exact .pairsNil
  | pairsCons _ _ _ ih1 ih2 ih3 => rw [List.map_append, List.map_append]; exact .pairsCons ih1 ih2 ih3

theorem posOf_number {l : List Nat} (hn : l.Nodup) : PosOf (number l) l.reverse := by
  intro i T hT
  obtain ⟨u, hu⟩ := hT
  have hl : l = T.reverse ++ i :: u.reverse := by
    have := congrArg List.reverse hu
    simpa using this.symm
  subst hl
  have hi : i ∉ T.reverse := fun h => by
    have := (List.nodup_append.mp hn).2.2 i h i (.head _)
    exact this rfl
  unfold number
  rw [if_pos (by simp), List.idxOf_append_of_notMem hi]
  simp

/-- The events of a dumped document represent the renumbered nodes. -/
theorem dump_rep {d : Doc} {w : List Step} {S : List Nat} (hw : NodeWalk d.nodes [] [1] w S) :
    ∃ A, Rep .node [] 0 (evs (walkEvents d.nodes (dumpName w) w)) [1] A (renumbered d.nodes (number (fulls w)) (fulls w)) := by
  have hS : S = (fulls w).reverse := by simpa using walk_seen hw
  have hnd : (fulls w).Nodup := by
    have := walk_nodup hw .nil
    rw [hS] at this
    exact (List.reverse_perm _).nodup_iff.mp this
  have h := walk_rep hw (an := number (twice [] (refs w))) (pos := number (fulls w)) (fun i hi => again_number hw hi)
    (by rw [hS]; exact posOf_number hnd) (fun i j h h0 => number_inj h h0)
  have h0 : binds (number (twice [] (refs w))) (number (fulls w)) [] = [] := rfl
  rw [h0, List.length_nil] at h
  rcases rep_nodes_inv h with ⟨-, hc, -⟩ | ⟨v, i, A1, ms, u, js, os, hv, hids, hns, h1, h2⟩
  · cases hc
  · simp only [List.map_cons, List.map_nil, List.cons.injEq] at hids
    obtain ⟨rfl, rfl⟩ := hids
    rcases rep_nodes_inv h2 with ⟨rfl, -, rfl, rfl⟩ | ⟨_, _, _, _, _, _, _, -, hc, -⟩
    · rw [List.append_nil] at hv hns
      rw [rep_root h1 rfl rfl, ← hns, ← hv] at h1
      exact ⟨_, h1⟩
    · cases hc

/-- C38. Composing the events that dumping a document sends, whatever marks they have by then, succeeds if memory suffices, and gives a graph
that is isomorphic to the part of the document that can be reached from its root, sharing and cycles included. -/
theorem C38_dump_then_compose {d : Doc} {w : List Step} {S : List Nat} (hw : NodeWalk d.nodes [] [1] w S) {es : List Event}
    (hes : es.map Event.data = walkEvents d.nodes (dumpName w) w) (room : Nat → Bool) (hroom : ∀ k, k < es.length → room k = true) :
    ∃ s, composeAll room es {} = .ok s ∧ IsoFrom d.nodes s.nodes (number (fulls w)) := by
  obtain ⟨A, hr⟩ := dump_rep hw
  obtain ⟨ns', hr', hsame⟩ := rep_marks hr (w' := es) (by rw [hes, evs_data])
  obtain ⟨s, hs, hns⟩ := (compose_iff (rep_grammar hr') ns').mpr ⟨A, hr'⟩
  refine ⟨s, by rw [composeAll_small (m := 0) es (by simpa using hroom) (by constructor <;> simp)]; exact hs, ?_⟩
  rw [hns]
  have hlen := hsame.length_eq
  rw [renumbered_length (walk_full_node hw)] at hlen
  have hmem := walk_reach_iff hw
  have hhead : ∃ r, fulls w = 1 :: r := by
    cases hw with
    | again h => cases h
    | leaf => exact ⟨_, rfl⟩
    | coll => exact ⟨_, rfl⟩
  refine ⟨?_, ?_, ?_, ?_⟩
  · obtain ⟨r, hr⟩ := hhead
    rw [hr]; simp [number]
  · intro i j hi hj h
    exact number_inj h ((number_pos _ _).mpr ((hmem i).mpr hi))
  · intro k h0 hk
    have hk' : k - 1 < (fulls w).length := by omega
    have hnd : (fulls w).Nodup := by
      have := walk_nodup hw .nil
      rw [walk_seen hw, List.append_nil] at this
      exact (List.reverse_perm _).nodup_iff.mp this
    refine ⟨(fulls w)[k - 1], (hmem _).mp (List.getElem_mem hk'), ?_⟩
    unfold number
    rw [if_pos (List.getElem_mem hk'), hnd.idxOf_getElem _ hk']
    omega
  · intro i hi
    have hm := (hmem i).mpr hi
    have hlt := List.idxOf_lt_length_of_mem hm
    have hpos : number (fulls w) i = (fulls w).idxOf i + 1 := by unfold number; rw [if_pos hm]
    obtain ⟨nd, hnd⟩ := walk_full_node hw i hm
    refine ⟨by omega, nd, ?_⟩
    rw [hpos, Nat.add_sub_cancel]
    have hget := renumbered_get (pos := number (fulls w)) (walk_full_node hw) ((fulls w).idxOf i)
    rw [List.getElem?_eq_getElem hlt, List.getElem_idxOf hlt] at hget
    simp only [Option.bind_some, hnd, Option.map_some] at hget
    obtain ⟨hl1, hg1⟩ := List.getElem?_eq_some_iff.mp hget
    have h2 := (List.forall₂_iff_get.mp hsame).2 ((fulls w).idxOf i) hl1 (by omega)
    refine ⟨ns'[(fulls w).idxOf i]'(by omega), hnd, List.getElem?_eq_getElem _, ?_, ?_⟩
    · rw [List.get_eq_getElem, List.get_eq_getElem, hg1] at h2
      rw [← h2.2]
      rcases nd with ⟨t, dd, _, _⟩
      cases dd <;> rfl
    · rw [List.get_eq_getElem, List.get_eq_getElem, hg1] at h2
      rw [← h2.1]
      rcases nd with ⟨t, dd, _, _⟩
      cases dd <;> rfl

/-- C38: the events are those of one document in the sense of the event grammar. -/
theorem C38_dump_is_grammatical {d : Doc} {w : List Step} {S : List Nat} (hw : NodeWalk d.nodes [] [1] w S) :
    GDoc (docEvents d (dumpName w) w) := by
  obtain ⟨A, hr⟩ := dump_rep hw
  have := rep_grammar hr
  rw [evs_data] at this
  exact ⟨_, _, _, _, _, this, rfl⟩

/-! ### A concrete case: shared and cyclic nodes, and one node that cannot be reached -/

/-- `&id002 { a: &id001 x, *id001: *id002 }`, with a fourth node that is not used. -/
def cyclic : Doc :=
  { version := none, tags := [], startImplicit := true, endImplicit := true, start := {}, stop := {},
    nodes := [{ tag := mapTag, data := .mapping [(2, 3), (3, 1)] .block, start := {}, stop := {} },
      { tag := strTag, data := .scalar (lit ['a']) .plain, start := {}, stop := {} },
      { tag := lit ['!'], data := .scalar (lit ['x']) .plain, start := {}, stop := {} },
      { tag := strTag, data := .scalar (lit ['y']) .plain, start := {}, stop := {} }] }

example : GraphOk cyclic.nodes ∧ cyclic.nodes ≠ [] := by
  refine ⟨?_, by simp [cyclic]⟩
  unfold GraphOk cyclic
  simp [Node.children]

example : NodeWalk cyclic.nodes [] [1] [.enter 1, .leaf 2, .leaf 3, .again 3, .again 1, .leave 1] [3, 2, 1] := by
  have h : NodeWalk cyclic.nodes [1] [2, 3, 3, 1] [.leaf 2, .leaf 3, .again 3, .again 1] [3, 2, 1] := by
    refine .leaf (by simp) (by simp) rfl (by simp [isColl]) ?_
    refine .leaf (by simp) (by simp) rfl (by simp [isColl]) ?_
    exact .again (by simp) (.again (by simp) .nil)
  exact .coll (nd := { tag := mapTag, data := .mapping [(2, 3), (3, 1)] .block, start := {}, stop := {} }) (by simp) (by simp) rfl
    trivial h .nil

/-- The emitter of this example accepts everything and keeps the events. -/
def keepAll (e : Event) (o : List EvData) : Bool × List EvData := (true, o ++ [e.data])

example : (match dump keepAll 5 cyclic { out := [] } with
    | .ok (b, s) => some (b, s.out)
    | .error _ => none) = some (true,
      [.streamStart none, .documentStart none [] true, .mappingStart (some (lit ['i', 'd', '0', '0', '2'])) (some mapTag) true .block,
        .scalar none (some strTag) (lit ['a']) true true .plain,
        .scalar (some (lit ['i', 'd', '0', '0', '1'])) (some (lit ['!'])) (lit ['x']) false false .plain,
        .alias (lit ['i', 'd', '0', '0', '1']), .alias (lit ['i', 'd', '0', '0', '2']), .mappingEnd, .documentEnd true]) := by
  decide +kernel

end LibYaml
