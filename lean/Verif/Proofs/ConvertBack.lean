import Verif.Proofs.Convert
import Verif.Proofs.Reread
import Verif.Props.Reread

/-!
# Loaded documents, dumped
-/

namespace LibYaml

open Spec

variable {τ : Type}

/-! ### What the loader ensures for nodes -/

theorem nodeTag_good {dflt : Text} (hd : CText dflt) (h0 : dflt ≠ [0x21]) {t : Option Text} (ht : ∀ x, t = some x → CText x) :
    CText (nodeTag dflt t) ∧ nodeTag dflt t ≠ [0x21] := by
  unfold nodeTag
  split
  · exact ⟨hd, h0⟩
  · split
    · exact ⟨hd, h0⟩
    · exact ⟨ht _ rfl, by assumption⟩

/-- What is known about the nodes of loaded documents. -/
def GoodNode (nd : Node) : Prop := (CText nd.tag ∧ nd.tag ≠ [0x21]) ∧ ∀ v st, nd.data = .scalar v st → ∀ c ∈ v, UChar c

theorem rep_good {s A n w ids A' ns} (h : Spec.Rep s A n w ids A' ns) (hw : ∀ e ∈ w, GoodEv e.data) : ∀ nd ∈ ns, GoodNode nd := by
  induction h with
  | «alias» => nofun
  | @scalar A n e a t v p q s he _ =>
    have h1 := hw e (.head _)
    rw [he] at h1
    intro nd hnd
    rw [List.mem_singleton.mp hnd]
    exact ⟨nodeTag_good (by unfold CText; decide) (by decide) h1.1.2, by rintro _ _ ⟨⟩; exact h1.2.1⟩
  | @seq A n e e' a t i s w items A' ns he _ _ _ ih =>
    have h1 := hw e (by simp)
    rw [he] at h1
    intro nd hnd
    rcases List.mem_cons.mp hnd with rfl | hnd
    · exact ⟨nodeTag_good (by unfold CText; decide) (by decide) h1.1.2, nofun⟩
    · exact ih (fun e he => hw e (by simp [he])) nd hnd
  | @map A n e e' a t i s w ids pairs A' ns he _ _ _ _ ih =>
    have h1 := hw e (by simp)
    rw [he] at h1
    intro nd hnd
    rcases List.mem_cons.mp hnd with rfl | hnd
    · exact ⟨nodeTag_good (by unfold CText; decide) (by decide) h1.1.2, nofun⟩
    · exact ih (fun e he => hw e (by simp [he])) nd hnd
  | nodesNil => nofun
  | nodesCons _ _ ih1 ih2 =>
    intro nd hnd
    rcases List.mem_append.mp hnd with hnd | hnd
    · exact ih1 (fun e he => hw e (by simp [he])) nd hnd
    · exact ih2 (fun e he => hw e (by simp [he])) nd hnd
  | pairsNil => nofun
  | pairsCons _ _ _ ih1 ih2 ih3 =>
    intro nd hnd
    rcases List.mem_append.mp hnd with hnd | hnd
    · exact ih1 (fun e he => hw e (by simp [he])) nd hnd
    · rcases List.mem_append.mp hnd with hnd | hnd
      · exact ih2 (fun e he => hw e (by simp [he])) nd hnd
      · exact ih3 (fun e he => hw e (by simp [he])) nd hnd

/-- Documents that represent events of the parser and are `KeptDoc` can be dumped. -/
theorem kept_dumpable {w : List Event} {d : Doc} (h : RepDoc w d) (hw : ∀ e ∈ w, GoodEv e.data) (hmax : d.nodes.length ≤ 2147483647) (hk : KeptDoc d) : Dumpable d := by
  obtain ⟨h1, h2, _⟩ := repDoc_wellFormed h
  obtain ⟨es, body, ee, A, rfl, k1, _, _, _, k2⟩ := h
  have h3 := hw es (by simp)
  rw [k1] at h3
  have h4 := rep_good k2 fun e he => hw e (by simp [he])
  have text : ∀ {x : Text}, CText x → ∀ c ∈ x, Storable c ∧ c ≠ 0 := fun h c hc => ⟨(h c hc).2, (h c hc).1⟩
  refine ⟨graph_of_ids h2, h1, hmax, h3.1, ⟨fun t ht => ⟨(h3.2.1 t ht).1, hk.prefixes t ht⟩, h3.2.2⟩, fun t ht => text (h3.2.1 t ht).2, ?_, ?_⟩
  · intro i nd _ hnd
    have hm := List.mem_of_getElem? hnd
    refine ⟨hk.tags nd hm, ?_⟩
    rintro x ⟨⟩
    exact ⟨text (h4 nd hm).1.1, hk.behind nd hm⟩
  · intro i nd v st _ hnd hd
    have hm := List.mem_of_getElem? hnd
    exact ⟨(h4 nd hm).2 v st hd, by rintro rfl; exact hk.folded nd hm v hd⟩

/-! ### The order of nodes -/

/-- `n`, …, 2, 1 -/
def down : Nat → List Nat
  | 0 => []
  | n + 1 => (n + 1) :: down n

theorem mem_down {n i : Nat} : i ∈ down n ↔ 0 < i ∧ i ≤ n := by
  induction n with
  | zero =>
    rw [down]
    refine ⟨nofun, fun h => ?_⟩
    omega
  | succ n ih =>
    rw [down, List.mem_cons, ih]
    omega

theorem down_length (n : Nat) : (down n).length = n := by
  induction n with
  | zero => rfl
  | succ n ih => rw [down, List.length_cons, ih]

theorem walk_append {nodes S is w S1 js v S2} (h : NodeWalk nodes S is w S1) (h' : NodeWalk nodes S1 js v S2) : NodeWalk nodes S (is ++ js) (w ++ v) S2 := by
  induction h generalizing v with
  | nil => exact h'
  | again a _ ih => exact .again a (ih h')
  | leaf a b c d _ ih => exact .leaf a b c d (ih h')
  | coll a b c d e _ _ ih =>
    rw [List.cons_append, List.cons_append, List.append_assoc, List.cons_append]
    exact .coll a b c d e (ih h')

/-- The walk meets the nodes of a loaded document in the order of their numbers. -/
theorem rep_walk {s A n w ids A' ns} (h : Spec.Rep s A n w ids A' ns) (nodes pre post : List Node) (hn : nodes = pre ++ ns ++ post) (hp : pre.length = n)
    (hA : ∀ p ∈ A, 0 < p.2 ∧ p.2 ≤ n) : ∃ v, NodeWalk nodes (down n) ids v (down (n + ns.length)) := by
  have hb : ∀ {A : List (Text × Nat)} {a : Option Text} {n : Nat}, (∀ p ∈ A, 0 < p.2 ∧ p.2 ≤ n) → ∀ p ∈ bindAnchor A a (n + 1), 0 < p.2 ∧ p.2 ≤ n + 1 := by
    intro A a n hA p hp
    unfold bindAnchor at hp
    split at hp
    · have := hA p hp; omega
    · rcases List.mem_append.mp hp with hp | hp
      · have := hA p hp; omega
      · rw [List.mem_singleton.mp hp]; simp
  have fresh : ∀ n, n + 1 ∉ down n := fun n hx => by have := mem_down.mp hx; omega
  induction h generalizing pre post with
  | «alias» _ hi => exact ⟨_, .again (mem_down.mpr (hA _ hi)) .nil⟩
  | @scalar A n e a t v p q s he _ =>
    refine ⟨_, .leaf (nd := { tag := nodeTag strTag t, data := .scalar v s, start := e.start, stop := e.stop }) (by omega) (fresh n) ?_ nofun .nil⟩
    rw [hn, ← hp]
    simp
  | @seq A n e e' a t i s w items A' ns he _ _ _ ih =>
    obtain ⟨v, hv⟩ := ih (pre ++ [{ tag := nodeTag seqTag t, data := .sequence items s, start := e.start, stop := e'.stop }]) post (by rw [hn]; simp) (by simp [hp]) (hb hA)
    rw [List.length_cons, Nat.add_comm ns.length 1, ← Nat.add_assoc]
    refine ⟨_, .coll (nd := { tag := nodeTag seqTag t, data := .sequence items s, start := e.start, stop := e'.stop }) (by omega) (fresh n) ?_ trivial hv .nil⟩
    rw [hn, ← hp]
    simp
  | @map A n e e' a t i s w ids pairs A' ns he _ _ _ hids ih =>
    obtain ⟨v, hv⟩ := ih (pre ++ [{ tag := nodeTag mapTag t, data := .mapping pairs s, start := e.start, stop := e'.stop }]) post (by rw [hn]; simp) (by simp [hp]) (hb hA)
    rw [List.length_cons, Nat.add_comm ns.length 1, ← Nat.add_assoc]
    rw [hids] at hv
    refine ⟨_, .coll (nd := { tag := nodeTag mapTag t, data := .mapping pairs s, start := e.start, stop := e'.stop }) (by omega) (fresh n) ?_ trivial hv .nil⟩
    rw [hn, ← hp]
    simp
  | nodesNil => exact ⟨_, .nil⟩
  | @nodesCons A n v is A1 ns w js A2 ms h1 h2 ih1 ih2 =>
    obtain ⟨v1, k1⟩ := ih1 pre (ms ++ post) (by rw [hn]; simp) hp hA
    obtain ⟨v2, k2⟩ := ih2 (pre ++ ns) post (by rw [hn]; simp) (by simp [hp]) (rep_ids h1 hA).2.1
    rw [List.length_append, ← Nat.add_assoc]
    exact ⟨_, walk_append k1 k2⟩
  | pairsNil => exact ⟨_, .nil⟩
  | @pairsCons A n u ks A1 ns v vs A2 ms w js A3 os h1 h2 h3 ih1 ih2 ih3 =>
    have p1 := (rep_ids h1 hA).2.1
    have p2 := (rep_ids h2 p1).2.1
    obtain ⟨v1, k1⟩ := ih1 pre (ms ++ os ++ post) (by rw [hn]; simp) hp hA
    obtain ⟨v2, k2⟩ := ih2 (pre ++ ns) (os ++ post) (by rw [hn]; simp) (by simp [hp]) p1
    obtain ⟨v3, k3⟩ := ih3 (pre ++ ns ++ ms) post (by rw [hn]; simp) (by simp [hp, Nat.add_assoc]) p2
    rw [List.length_append, List.length_append, ← Nat.add_assoc, ← Nat.add_assoc]
    exact ⟨_, walk_append k1 (walk_append k2 k3)⟩

theorem repDoc_walk {w : List Event} {d : Doc} (h : RepDoc w d) : ∃ v, NodeWalk d.nodes [] [1] v (down d.nodes.length) := by
  obtain ⟨es, body, ee, A, _, _, _, _, _, hr⟩ := h
  have := rep_walk hr d.nodes [] [] (by simp) rfl nofun
  rwa [Nat.zero_add] at this

theorem children_relabel {nd nd' : Node} {pos : Nat → Nat} (h : unstyled nd'.data = unstyled (relabel pos nd.data)) :
    nd'.children = nd.children.map pos ∧ (isColl nd' ↔ isColl nd) := by
  obtain ⟨t, dt, _, _⟩ := nd
  obtain ⟨t', dt', _, _⟩ := nd'
  unfold Node.children isColl
  cases dt <;> cases dt' <;> simp only [relabel, unstyled, NodeData.scalar.injEq, NodeData.sequence.injEq, NodeData.mapping.injEq, reduceCtorEq] at h ⊢
  · simp
  · simp [h.1]
  · simp [h.1, List.map_flatMap, List.flatMap_map]

/-- An isomorphism maps walks to walks. -/
theorem iso_walk {nodes nodes' : List Node} {pos : Nat → Nat} (h : IsoContent nodes nodes' pos) {S is w S'} (hw : NodeWalk nodes S is w S')
    (hS : ∀ i ∈ S, NodeReach nodes [1] i) (hi : ∀ i ∈ is, NodeReach nodes [1] i) :
    (∃ v, NodeWalk nodes' (S.map pos) (is.map pos) v (S'.map pos)) ∧ ∀ i ∈ S', NodeReach nodes [1] i := by
  obtain ⟨_, hinj, _, hall⟩ := h
  have new : ∀ {S : List Nat} {i : Nat}, (∀ i ∈ S, NodeReach nodes [1] i) → NodeReach nodes [1] i → i ∉ S → pos i ∉ S.map pos := by
    intro S i hS hi hn hm
    obtain ⟨j, hj, he⟩ := List.mem_map.mp hm
    rw [hinj j i (hS j hj) hi he] at hj
    exact hn hj
  induction hw with
  | nil => exact ⟨⟨_, .nil⟩, hS⟩
  | again hm _ ih =>
    obtain ⟨⟨v, hv⟩, h2⟩ := ih hS fun i hx => hi i (.tail _ hx)
    exact ⟨⟨_, .again (List.mem_map_of_mem hm) hv⟩, h2⟩
  | @leaf S i is nd w S' h1 h2 h3 h4 _ ih =>
    have hr := hi i (.head _)
    obtain ⟨k1, nd1, nd', k2, k3, k4, _⟩ := hall i hr
    rw [h3] at k2
    cases k2
    obtain ⟨⟨v, hv⟩, h5⟩ := ih (fun j hj => by rcases List.mem_cons.mp hj with rfl | hj; exacts [hr, hS j hj]) fun i hx => hi i (.tail _ hx)
    exact ⟨⟨_, .leaf k1 (new hS hr h2) k3 (fun hc => h4 ((children_relabel k4).2.mp hc)) hv⟩, h5⟩
  | @coll S i is nd c w S1 S' h1 h2 h3 h4 _ _ ih1 ih2 =>
    have hr := hi i (.head _)
    obtain ⟨k1, nd1, nd', k2, k3, k4, _⟩ := hall i hr
    rw [h3] at k2
    cases k2
    obtain ⟨⟨v, hv⟩, h5⟩ := ih1 (fun j hj => by rcases List.mem_cons.mp hj with rfl | hj; exacts [hr, hS j hj]) fun j hj => .child hr h1 h3 hj
    obtain ⟨⟨v', hv'⟩, h6⟩ := ih2 h5 fun i hx => hi i (.tail _ hx)
    rw [← (children_relabel k4).1] at hv
    exact ⟨⟨_, .coll k1 (new hS hr h2) k3 ((children_relabel k4).2.mpr h4) hv hv'⟩, h6⟩

theorem down_map {n : Nat} {pos : Nat → Nat} (h : (down n).map pos = down n) : ∀ i, 0 < i → i ≤ n → pos i = i := by
  induction n with
  | zero => intro i h1 h2; omega
  | succ n ih =>
    rw [down, List.map_cons, List.cons.injEq] at h
    intro i h1 h2
    by_cases hi : i = n + 1
    · rw [hi]; exact h.1
    · exact ih h.2 i h1 (by omega)

theorem relabel_same {nd : Node} {pos : Nat → Nat} (h : ∀ i ∈ nd.children, pos i = i) : relabel pos nd.data = nd.data := by
  obtain ⟨t, dt, _, _⟩ := nd
  unfold Node.children at h
  cases dt with
  | scalar v s => rfl
  | sequence items s =>
    show NodeData.sequence (items.map pos) s = _
    rw [List.map_congr_left (g := id) fun i hi => h i hi, List.map_id]
  | mapping pairs s =>
    have : pairs.map (fun p => (pos p.1, pos p.2)) = pairs := by
      conv => rhs; rw [← List.map_id pairs]
      refine List.map_congr_left fun p hp => ?_
      simp only [List.mem_flatMap] at h
      rw [h p.1 ⟨p, hp, by simp⟩, h p.2 ⟨p, hp, by simp⟩]
      rfl
    show NodeData.mapping (pairs.map fun p => (pos p.1, pos p.2)) s = _
    rw [this]

/-- Loaded documents with isomorphic contents have the same nodes in the same order. -/
theorem same_loaded {d d' : Doc} {w w' : List Event} (h : RepDoc w d) (h' : RepDoc w' d') (htag : ∀ nd ∈ d.nodes, nd.tag ≠ [0x21]) (hs : SameDoc d d') :
    SameLoaded d d' := by
  obtain ⟨hv, ht, pos, hiso⟩ := hs
  obtain ⟨v, k1⟩ := repDoc_walk h
  obtain ⟨v', k2⟩ := repDoc_walk h'
  obtain ⟨⟨v2, k3⟩, hr⟩ := iso_walk hiso k1 nofun (fun i hi => .here hi)
  obtain ⟨p1, _, _, hall⟩ := hiso
  simp only [List.map_nil, List.map_cons, p1] at k3
  have k4 := (walk_unique k3 k2).2
  have hlen : d.nodes.length = d'.nodes.length := by
    have := congrArg List.length k4
    simpa [down_length] using this
  rw [← hlen] at k4
  have hpos := down_map k4
  have hids := (repDoc_wellFormed h).2.1
  refine ⟨hv.symm, ht.symm, List.forall₂_iff_get.mpr ⟨hlen, fun i h1 h2 => ?_⟩⟩
  obtain ⟨_, nd, nd', j1, j2, j3, j4⟩ := hall (i + 1) (hr (i + 1) (mem_down.mpr ⟨by omega, by omega⟩))
  rw [hpos (i + 1) (by omega) (by omega)] at j2
  simp only [Nat.add_sub_cancel] at j1 j2
  rw [List.getElem?_eq_getElem h1] at j1
  rw [List.getElem?_eq_getElem h2] at j2
  cases j1
  cases j2
  have hm : d.nodes[i] ∈ d.nodes := List.getElem_mem h1
  rw [if_neg (htag _ hm)] at j4
  have hg := graph_of_ids hids _ hm
  rw [relabel_same fun k hk => hpos k (hg k hk).1 (hg k hk).2] at j3
  exact ⟨j4.symm, j3.symm⟩

/-! ### The program on values as calls of the dumper -/

theorem dump_first {em : Event → τ → Bool × τ} {fuel : Nat} {d : Doc} {x : τ} {z : Dumper τ} (h : dump em fuel d { out := x } = .ok (true, z)) :
    ∃ s, dOpen em { out := x } = .ok (true, s) ∧ s.opened = true ∧ dump em fuel d s = .ok (true, z) := by
  unfold dump at h ⊢
  rw [if_neg (by simp)] at h
  cases ho : dOpen em { out := x } with
  | error e => rw [ho] at h; cases h
  | ok r =>
    obtain ⟨b, s⟩ := r
    rw [ho] at h
    cases b with
    | false => cases h
    | true =>
      have hs : s.opened = true := by
        unfold dOpen at ho
        rw [if_neg (by simp)] at ho
        split at ho
        · cases ho; rfl
        · cases ho
      refine ⟨s, rfl, hs, ?_⟩
      rw [if_pos hs]
      exact h

theorem converted_dumps {em : Event → τ → Bool × τ} {fuel : Nat} {ds : List Doc} (hds : ∀ d ∈ ds, d.nodes ≠ []) {os : List LOut} {s z : Dumper τ} (hs : s.opened = true)
    (h : converted em fuel (ds.map .doc ++ .doc Doc.empty :: os) s = .ok (.done, z)) :
    ∃ bs, runCalls em fuel (ds.map .dumps ++ [.closes]) s = .ok (bs, z) ∧ ∀ b ∈ bs, b = true := by
  induction ds generalizing s with
  | nil =>
    simp only [List.map_nil, List.nil_append, converted, dump, hs, if_true] at h
    rw [if_pos (show Doc.empty.nodes = [] from rfl)] at h
    simp only [List.map_nil, List.nil_append, runCalls, DCall.run]
    cases hc : dClose em s with
    | error e => rw [hc] at h; cases h
    | ok r =>
      obtain ⟨b, s1⟩ := r
      rw [hc] at h
      cases b with
      | false => cases h
      | true =>
        simp only at h
        rw [if_pos (show Doc.empty.nodes = [] from rfl)] at h
        cases h
        exact ⟨[true], rfl, by simp⟩
  | cons d ds ih =>
    rw [List.map_cons, List.cons_append, converted] at h
    cases hd : dump em fuel d s with
    | error e => rw [hd] at h; cases h
    | ok r =>
      obtain ⟨b, s1⟩ := r
      rw [hd] at h
      cases b with
      | false => cases h
      | true =>
        simp only at h
        rw [if_neg (hds d (.head _))] at h
        obtain ⟨bs, k1, k2⟩ := ih (fun d hd => hds d (.tail _ hd)) (dump_opened hd) h
        exact ⟨true :: bs, (runCalls_cons (c := .dumps d) hd).mpr ⟨bs, rfl, k1⟩, fun b hb => by
          rcases List.mem_cons.mp hb with rfl | hb
          exacts [rfl, k2 b hb]⟩

/-- If the program on values is done, opening, dumping each document, and closing succeed. -/
theorem converted_calls {em : Event → τ → Bool × τ} {fuel : Nat} {ds : List Doc} (hds : ∀ d ∈ ds, d.nodes ≠ []) {os : List LOut} {x : τ} {z : Dumper τ}
    (h : converted em fuel (ds.map .doc ++ .doc Doc.empty :: os) { out := x } = .ok (.done, z)) :
    ∃ bs, runCalls em fuel (.opens :: ds.map .dumps ++ [.closes]) { out := x } = .ok (bs, z) ∧ ∀ b ∈ bs, b = true := by
  have first : ∃ s, dOpen em { out := x } = .ok (true, s) ∧ s.opened = true ∧ converted em fuel (ds.map .doc ++ .doc Doc.empty :: os) s = .ok (.done, z) := by
    generalize hl : ds.map LOut.doc ++ .doc Doc.empty :: os = l at h
    have hne : ∃ d l', l = .doc d :: l' := by
      cases ds with
      | nil => exact ⟨_, _, hl.symm⟩
      | cons d ds => exact ⟨_, _, hl.symm⟩
    obtain ⟨d, l', rfl⟩ := hne
    rw [converted] at h
    cases hd : dump em fuel d { out := x } with
    | error e => rw [hd] at h; cases h
    | ok r =>
      obtain ⟨b, s1⟩ := r
      rw [hd] at h
      cases b with
      | false => cases h
      | true =>
        obtain ⟨s, k1, k2, k3⟩ := dump_first hd
        exact ⟨s, k1, k2, by rw [converted, k3]; exact h⟩
  obtain ⟨s, k1, k2, k3⟩ := first
  obtain ⟨bs, k4, k5⟩ := converted_dumps hds k2 k3
  exact ⟨true :: bs, (runCalls_cons (c := .opens) k1).mpr ⟨bs, rfl, k4⟩, fun b hb => by
    rcases List.mem_cons.mp hb with rfl | hb
    exacts [rfl, k5 b hb]⟩

/-- And conversely. -/
theorem calls_converted {em : Event → τ → Bool × τ} {fuel : Nat} {ds : List Doc} (hds : ∀ d ∈ ds, d.nodes ≠ []) {os : List LOut} {x : τ} {bs : List Bool} {z : Dumper τ}
    (h : runCalls em fuel (.opens :: ds.map .dumps ++ [.closes]) { out := x } = .ok (bs, z)) (hb : ∀ b ∈ bs, b = true) :
    converted em fuel (ds.map .doc ++ .doc Doc.empty :: os) { out := x } = .ok (.done, z) := by
  have step : ∀ {c : DCall} {cs : List DCall} {s z : Dumper τ} {bs : List Bool}, runCalls em fuel (c :: cs) s = .ok (bs, z) → (∀ b ∈ bs, b = true) →
      ∃ s1 bs', c.run em fuel s = .ok (true, s1) ∧ runCalls em fuel cs s1 = .ok (bs', z) ∧ ∀ b ∈ bs', b = true := by
    intro c cs s z bs h hb
    cases hc : c.run em fuel s with
    | error e => rw [runCalls, hc] at h; cases h
    | ok r =>
      obtain ⟨b, s1⟩ := r
      obtain ⟨bs', rfl, k⟩ := (runCalls_cons hc).mp h
      obtain rfl := hb b (.head _)
      exact ⟨s1, bs', rfl, k, fun b h => hb b (.tail _ h)⟩
  have rest : ∀ {ds : List Doc} {s : Dumper τ} {bs : List Bool}, (∀ d ∈ ds, d.nodes ≠ []) → s.opened = true →
      runCalls em fuel (ds.map .dumps ++ [.closes]) s = .ok (bs, z) → (∀ b ∈ bs, b = true) →
      converted em fuel (ds.map .doc ++ .doc Doc.empty :: os) s = .ok (.done, z) := by
    intro ds
    induction ds with
    | nil =>
      intro s bs _ hs h hb
      obtain ⟨s1, bs', k1, k2, _⟩ := step h hb
      cases k2
      replace k1 : dClose em s = .ok (true, z) := k1
      simp only [List.map_nil, List.nil_append, converted, dump, hs, if_true]
      rw [if_pos (show Doc.empty.nodes = [] from rfl), k1]
      simp only
      rw [if_pos (show Doc.empty.nodes = [] from rfl)]
    | cons d ds ih =>
      intro s bs hds hs h hb
      obtain ⟨s1, bs', k1, k2, k3⟩ := step h hb
      replace k1 : dump em fuel d s = .ok (true, s1) := k1
      rw [List.map_cons, List.cons_append, converted, k1]
      simp only
      rw [if_neg (hds d (.head _))]
      exact ih (fun d hd => hds d (.tail _ hd)) (dump_opened k1) k2 k3
  obtain ⟨s1, bs', k1, k2, k3⟩ := step h hb
  replace k1 : dOpen em { out := x } = .ok (true, s1) := k1
  have hs : s1.opened = true := by
    unfold dOpen at k1
    rw [if_neg (by simp)] at k1
    split at k1
    · cases k1; rfl
    · cases k1
  have k4 := rest hds hs k2 k3
  have same : ∀ d, dump em fuel d { out := x } = dump em fuel d s1 := by
    intro d
    unfold dump
    rw [if_neg (by simp), if_pos hs, k1]
  revert k4
  cases ds with
  | nil => intro k4; simp only [List.map_nil, List.nil_append, converted, same] at k4 ⊢; exact k4
  | cons d ds => intro k4; simp only [List.map_cons, List.cons_append, converted, same] at k4 ⊢; exact k4

theorem forall2_imp_mem {α β : Type} {R T : α → β → Prop} {l : List α} {m : List β} (h : List.Forall₂ R l m) (himp : ∀ a b, a ∈ l → b ∈ m → R a b → T a b) :
    List.Forall₂ T l m := by
  induction h with
  | nil => exact .nil
  | cons h1 _ ih => exact .cons (himp _ _ (.head _) (.head _) h1) (ih fun a b ha hb => himp a b (.tail _ ha) (.tail _ hb))

/-! ### Loading with a budget -/

theorem composeEvent_count {room : Nat → Bool} {ev : Event} {s s' : CState} (h : composeEvent room ev s = .ok s') : s'.nodes.length ≤ s.nodes.length + 1 := by
  have add : ∀ {i s s'}, nodeAdd room i s = .ok s' → s'.nodes.length = s.nodes.length := by
    intro i s s' h
    unfold nodeAdd at h
    split at h
    · cases h; rfl
    · split at h
      · cases h
      · split at h
        · cases h; simp
        · cases h
  have new : ∀ {nd a o}, addNode room nd a o s = .ok s' → s'.nodes.length ≤ s.nodes.length + 1 := by
    intro nd a o h
    unfold addNode at h
    split at h
    · simp only at h
      split at h
      · cases h
      · split at h
        · cases h
        · rename_i s1 h1
          have := add h1
          simp only [List.length_append, List.length_singleton] at this
          split at h
          · split at h
            · cases h; dsimp only; omega
            · cases h
          · cases h; omega
    · cases h
  have close : ∀ {isKind stop}, closeNode isKind stop s = .ok s' → s'.nodes.length ≤ s.nodes.length + 1 := by
    intro isKind stop h
    unfold closeNode at h
    split at h
    · cases h
    · split at h
      · cases h
      · split at h
        · cases h; simp
        · cases h
  obtain ⟨data, start, stop⟩ := ev
  cases data with
  | «alias» a =>
    replace h : loadAlias room a start s = .ok s' := h
    unfold loadAlias at h
    split at h
    · have := add h; omega
    · cases h
  | scalar a t v pi qi st => exact new h
  | sequenceStart a t i st => exact new h
  | mappingStart a t i st => exact new h
  | sequenceEnd => exact close h
  | mappingEnd => exact close h
  | _ => cases h

section
variable {σ : Type} {room : Nat → Bool} {S : TokSrc σ} {maxLevel : Int} {fuel : Nat}

theorem loadNodes_count {m : Nat} {s s' : CState} {p q : Parser σ} {i : Bool} {stop : Mark}
    (h : loadNodes room S maxLevel fuel m s p = .ok (.done s' i stop, q)) : s'.nodes.length ≤ s.nodes.length + m := by
  induction m generalizing s p with
  | zero => cases h
  | succ m ih =>
    unfold loadNodes at h
    split at h
    · cases h
    · cases h
    · cases h
    · split at h
      · cases h; omega
      · split at h
        · rename_i s1 h1
          have := composeEvent_count h1
          have := ih h
          omega
        · cases h
        · cases h

theorem load_count {m : Nat} {p q : Parser σ} {d : Doc} (h : load room S maxLevel fuel m p = .ok (.doc d, q)) : d.nodes.length ≤ m := by
  have doc : ∀ {e p}, loadDocument room S maxLevel fuel m e p = .ok (.doc d, q) → d.nodes.length ≤ m := by
    intro e p h
    unfold loadDocument at h
    split at h
    · split at h
      · cases h
      · cases h
      · rename_i h1
        cases h
        have := loadNodes_count h1
        simpa using this
    · cases h
  have rest : ∀ {p}, loadRest room S maxLevel fuel m p = .ok (.doc d, q) → d.nodes.length ≤ m := by
    intro p h
    unfold loadRest at h
    split at h
    · cases h; exact Nat.zero_le _
    · split at h
      · cases h
      · cases h
      · cases h
      · split at h
        · cases h; exact Nat.zero_le _
        · exact doc h
  unfold load at h
  split at h
  · split at h
    · cases h
    · cases h
    · cases h
    · split at h
      · exact rest h
      · cases h
  · exact rest h

/-- A document has no more nodes than the budget allows. -/
theorem loadN_count {m k : Nat} {p q : Parser σ} {os : List LOut} (h : loadN room S maxLevel fuel m k p = .ok (os, q)) {d : Doc} (hd : .doc d ∈ os) :
    d.nodes.length ≤ m := by
  induction k generalizing p os with
  | zero => cases h; cases hd
  | succ k ih =>
    unfold loadN at h
    cases h1 : load room S maxLevel fuel m p with
    | error e => rw [h1] at h; cases h
    | ok r =>
      obtain ⟨o, p1⟩ := r
      simp only [h1] at h
      cases h2 : loadN room S maxLevel fuel m k p1 with
      | error e => rw [h2] at h; cases h
      | ok r =>
        obtain ⟨os1, p2⟩ := r
        simp only [h2] at h
        cases h
        rcases List.mem_cons.mp hd with rfl | hd
        · exact load_count h1
        · exact ih h2 hd

end

end LibYaml
