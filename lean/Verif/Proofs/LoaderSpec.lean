import Verif.Proofs.Loader
import Verif.Spec.ReadBack
import Verif.Spec.Graph

/-! Consequences of `Rep`: validity of ids, reading back, faults with anchors. -/

namespace LibYaml

open Spec

/-! ### Ids -/

theorem rep_ids {s A n w ids A' ns} (h : Rep s A n w ids A' ns) (hA : ∀ p ∈ A, 0 < p.2 ∧ p.2 ≤ n) :
    (∀ i ∈ ids, 0 < i ∧ i ≤ n + ns.length) ∧ (∀ p ∈ A', 0 < p.2 ∧ p.2 ≤ n + ns.length) ∧
      ∀ nd ∈ ns, ∀ i ∈ nd.children, 0 < i ∧ i ≤ n + ns.length := by
  have hb : ∀ {A : List (Text × Nat)} {a : Option Text} {n : Nat}, (∀ p ∈ A, 0 < p.2 ∧ p.2 ≤ n) →
      ∀ p ∈ bindAnchor A a (n + 1), 0 < p.2 ∧ p.2 ≤ n + 1 := by
    intro A a n hA p hp
    cases a with
    | none => have := hA p hp; omega
    | some x =>
      simp only [bindAnchor, List.mem_append, List.mem_singleton] at hp
      rcases hp with hp | rfl
      · have := hA p hp; omega
      · simp
  induction h with
  | alias he hm => exact ⟨by simpa using hA _ hm, by simpa using hA, by simp⟩
  | scalar he hu => exact ⟨by simp, by simpa using hb hA, by simp [Node.children]⟩
  | seq he he' hu hw ih =>
    obtain ⟨a1, b1, c1⟩ := ih (hb hA)
    simp only [List.length_cons]
    refine ⟨by simp, fun p hp => by have := b1 p hp; omega, ?_⟩
    intro nd hnd i hi
    simp only [List.mem_cons] at hnd
    rcases hnd with rfl | hnd
    · have := a1 i hi; omega
    · have := c1 nd hnd i hi; omega
  | map he he' hu hw hp ih =>
    obtain ⟨a1, b1, c1⟩ := ih (hb hA)
    simp only [List.length_cons]
    refine ⟨by simp, fun p hp => by have := b1 p hp; omega, ?_⟩
    intro nd hnd i hi
    simp only [List.mem_cons] at hnd
    rcases hnd with rfl | hnd
    · have := a1 i (by rw [hp]; exact hi); omega
    · have := c1 nd hnd i hi; omega
  | nodesNil => exact ⟨by simp, by simpa using hA, by simp⟩
  | nodesCons h1 h2 ih1 ih2 =>
    obtain ⟨a1, b1, c1⟩ := ih1 hA
    obtain ⟨a2, b2, c2⟩ := ih2 b1
    simp only [List.length_append]
    refine ⟨fun i hi => ?_, fun p hp => by have := b2 p hp; omega, fun nd hnd i hi => ?_⟩
    · rcases List.mem_append.mp hi with hi | hi
      · have := a1 i hi; omega
      · have := a2 i hi; omega
    · rcases List.mem_append.mp hnd with hnd | hnd
      · have := c1 nd hnd i hi; omega
      · have := c2 nd hnd i hi; omega
  | pairsNil => exact ⟨by simp, by simpa using hA, by simp⟩
  | pairsCons h1 h2 h3 ih1 ih2 ih3 =>
    obtain ⟨a1, b1, c1⟩ := ih1 hA
    obtain ⟨a2, b2, c2⟩ := ih2 b1
    obtain ⟨a3, b3, c3⟩ := ih3 b2
    simp only [List.length_append]
    refine ⟨fun i hi => ?_, fun p hp => by have := b3 p hp; omega, fun nd hnd i hi => ?_⟩
    · rcases List.mem_append.mp hi with hi | hi
      · have := a1 i hi; omega
      · rcases List.mem_append.mp hi with hi | hi
        · have := a2 i hi; omega
        · have := a3 i hi; omega
    · rcases List.mem_append.mp hnd with hnd | hnd
      · have := c1 nd hnd i hi; omega
      · rcases List.mem_append.mp hnd with hnd | hnd
        · have := c2 nd hnd i hi; omega
        · have := c3 nd hnd i hi; omega

theorem NodeReach.mono {nodes : List Node} {ids ids' : List Nat} (h : ∀ i ∈ ids, NodeReach nodes ids' i) {j : Nat}
    (hr : NodeReach nodes ids j) : NodeReach nodes ids' j := by
  induction hr with
  | here hi => exact h _ hi
  | child _ h0 hn hj ih => exact .child ih h0 hn hj

/-- Every new node can be reached from the nodes denoted. -/
theorem rep_reach {s A n w ids A' ns} (h : Rep s A n w ids A' ns) (pre post : List Node) (hpre : pre.length = n) :
    ∀ j, n < j → j ≤ n + ns.length → NodeReach (pre ++ ns ++ post) ids j := by
  induction h generalizing pre post with
  | alias => intro j h1 h2; simp at h2; omega
  | scalar => intro j h1 h2; simp at h2; exact .here (by simp; omega)
  | @seq A n e e' a t i s w items A' ns he he' hu hw ih =>
    intro j h1 h2
    by_cases hj : j = n + 1
    · exact .here (by simp [hj])
    · have := ih (pre ++ [{ tag := nodeTag seqTag t, data := .sequence items s, start := e.start, stop := e'.stop }]) post (by simp [hpre]) j (by omega) (by simp at h2; omega)
      rw [List.append_assoc pre, List.singleton_append] at this
      refine this.mono fun k hk => ?_
      refine .child (i := n + 1) (.here (by simp)) (by omega)
        (nd := { tag := nodeTag seqTag t, data := .sequence items s, start := e.start, stop := e'.stop }) ?_ ?_
      · simp [← hpre]
      · exact hk
  | @map A n e e' a t i s w ids pairs A' ns he he' hu hw hp ih =>
    intro j h1 h2
    by_cases hj : j = n + 1
    · exact .here (by simp [hj])
    · have := ih (pre ++ [{ tag := nodeTag mapTag t, data := .mapping pairs s, start := e.start, stop := e'.stop }]) post (by simp [hpre]) j (by omega) (by simp at h2; omega)
      rw [List.append_assoc pre, List.singleton_append] at this
      refine this.mono fun k hk => ?_
      refine .child (i := n + 1) (.here (by simp)) (by omega)
        (nd := { tag := nodeTag mapTag t, data := .mapping pairs s, start := e.start, stop := e'.stop }) ?_ ?_
      · simp [← hpre]
      · rw [hp] at hk; exact hk
  | nodesNil => intro j h1 h2; simp at h2; omega
  | @nodesCons A n v is A1 ns w js A2 ms h1 h2 ih1 ih2 =>
    intro j hj1 hj2
    simp only [List.length_append] at hj2
    by_cases hj : j ≤ n + ns.length
    · have := ih1 pre (ms ++ post) hpre j hj1 hj
      simp only [List.append_assoc] at this ⊢
      exact this.mono fun k hk => .here (List.mem_append_left _ hk)
    · have := ih2 (pre ++ ns) post (by simp [hpre]) j (by omega) (by omega)
      simp only [List.append_assoc] at this ⊢
      exact this.mono fun k hk => .here (List.mem_append_right _ hk)
  | pairsNil => intro j h1 h2; simp at h2; omega
  | @pairsCons A n u ks A1 ns v vs A2 ms w js A3 os h1 h2 h3 ih1 ih2 ih3 =>
    intro j hj1 hj2
    simp only [List.length_append] at hj2
    by_cases hj : j ≤ n + ns.length
    · have := ih1 pre (ms ++ os ++ post) hpre j hj1 hj
      simp only [List.append_assoc] at this ⊢
      exact this.mono fun k hk => .here (by simp [hk])
    · by_cases hj' : j ≤ n + ns.length + ms.length
      · have := ih2 (pre ++ ns) (os ++ post) (by simp [hpre]) j (by omega) hj'
        simp only [List.append_assoc] at this ⊢
        exact this.mono fun k hk => .here (by simp [hk])
      · have := ih3 (pre ++ ns ++ ms) post (by simp [hpre, Nat.add_assoc]) j (by omega) (by omega)
        simp only [List.append_assoc] at this ⊢
        exact this.mono fun k hk => .here (by simp [hk])

/-! ### Bindings -/

theorem bindings_append (n : Nat) (v w : List EvData) :
    bindings n (v ++ w) = bindings n v ++ bindings (n + (v.filter startsNode).length) w := by
  induction v generalizing n with
  | nil => simp [bindings]
  | cons e v ih =>
    have hn : (if startsNode e = true then n + 1 else n) + (v.filter startsNode).length =
        n + ((e :: v).filter startsNode).length := by
      by_cases h : startsNode e = true
      · rw [if_pos h, List.filter_cons_of_pos h, List.length_cons]; omega
      · rw [if_neg h, List.filter_cons_of_neg h]
    simp only [List.cons_append, bindings]
    cases anchorOf e with
    | none => simp only; rw [ih, hn]
    | some a => simp only; rw [ih, hn]; rfl

theorem bind_bindings (A : List (Text × Nat)) (e : EvData) (hs : startsNode e = true) (n : Nat) (w : List EvData) :
    A ++ bindings n (e :: w) = bindAnchor A (anchorOf e) (n + 1) ++ bindings (n + 1) w := by
  simp only [bindings, hs, if_true]
  cases anchorOf e with
  | none => rfl
  | some a => simp [bindAnchor]

/-- The bindings of a representation are those of the events, and the number of nodes is right. -/
theorem rep_bindings {s A n w ids A' ns} (h : Rep s A n w ids A' ns) :
    A' = A ++ bindings n (w.map Event.data) ∧ ns.length = ((w.map Event.data).filter startsNode).length := by
  induction h with
  | alias he hm => simp [he, bindings, anchorOf, startsNode]
  | @scalar A n e a t v p q s he hu =>
    simp only [List.map_cons, List.map_nil, he]
    rw [bind_bindings _ _ rfl]
    simp [bindings, anchorOf, List.filter_cons, startsNode]
  | @seq A n e e' a t i s w items A' ns he he' hu hw ih =>
    obtain ⟨h1, h2⟩ := ih
    simp only [List.map_cons, List.map_append, List.cons_append, List.map_nil, he, he']
    rw [bind_bindings _ _ rfl, bindings_append]
    simp [bindings, anchorOf, List.filter_cons, startsNode, h1, h2]
  | @map A n e e' a t i s w ids pairs A' ns he he' hu hw hp ih =>
    obtain ⟨h1, h2⟩ := ih
    simp only [List.map_cons, List.map_append, List.cons_append, List.map_nil, he, he']
    rw [bind_bindings _ _ rfl, bindings_append]
    simp [bindings, anchorOf, List.filter_cons, startsNode, h1, h2]
  | nodesNil => simp [bindings]
  | nodesCons h1 h2 ih1 ih2 =>
    obtain ⟨a1, b1⟩ := ih1
    obtain ⟨a2, b2⟩ := ih2
    simp only [List.map_append, bindings_append, List.filter_append, List.length_append]
    rw [a2, a1, b1, b2]
    simp
  | pairsNil => simp [bindings]
  | pairsCons h1 h2 h3 ih1 ih2 ih3 =>
    obtain ⟨a1, b1⟩ := ih1
    obtain ⟨a2, b2⟩ := ih2
    obtain ⟨a3, b3⟩ := ih3
    simp only [List.map_append, bindings_append, List.filter_append, List.length_append]
    rw [a3, a2, a1, b1, b2, b3]
    simp [Nat.add_assoc]

/-! ### Reading back -/

theorem readBack_mono (nodes : List Node) {f g : Nat} (h : f ≤ g) {n : Nat} {is : List Nat} {r : List Shape × Nat}
    (hr : readBack nodes f n is = some r) : readBack nodes g n is = some r := by
  induction f generalizing g n is r with
  | zero =>
    cases is with
    | nil => cases g <;> simpa [readBack] using hr
    | cons i is => simp [readBack] at hr
  | succ f ih =>
    obtain ⟨g, rfl⟩ : ∃ g', g = g' + 1 := ⟨g - 1, by omega⟩
    have hfg : f ≤ g := by omega
    cases is with
    | nil => simpa [readBack] using hr
    | cons i is =>
      have key : ∀ {n is r}, readBack nodes f n is = some r → readBack nodes g n is = some r := fun h => ih hfg h
      simp only [readBack] at hr ⊢
      by_cases h1 : 0 < i ∧ i ≤ n
      · rw [if_pos h1] at hr ⊢
        cases h2 : readBack nodes f n is with
        | none => rw [h2] at hr; cases hr
        | some x => rw [key h2]; rw [h2] at hr; exact hr
      · rw [if_neg h1] at hr ⊢
        by_cases h2 : i = n + 1
        · rw [if_pos h2] at hr ⊢
          cases hn : nodes[n]? with
          | none => rw [hn] at hr; cases hr
          | some nd =>
            rw [hn] at hr
            simp only at hr ⊢
            cases hd : nd.data with
            | scalar v s =>
              rw [hd] at hr
              simp only at hr ⊢
              cases h3 : readBack nodes f (n + 1) is with
              | none => rw [h3] at hr; cases hr
              | some x => rw [key h3]; rw [h3] at hr; exact hr
            | sequence items s =>
              rw [hd] at hr
              simp only at hr ⊢
              cases h3 : readBack nodes f (n + 1) items with
              | none => rw [h3] at hr; cases hr
              | some x =>
                rw [key h3]
                rw [h3] at hr
                simp only at hr ⊢
                cases h4 : readBack nodes f x.2 is with
                | none => rw [h4] at hr; cases hr
                | some y => rw [key h4]; rw [h4] at hr; exact hr
            | mapping pairs s =>
              rw [hd] at hr
              simp only at hr ⊢
              cases h3 : readBack nodes f (n + 1) (pairs.flatMap fun p => [p.1, p.2]) with
              | none => rw [h3] at hr; cases hr
              | some x =>
                rw [key h3]
                rw [h3] at hr
                simp only at hr ⊢
                cases h4 : readBack nodes f x.2 is with
                | none => rw [h4] at hr; cases hr
                | some y => rw [key h4]; rw [h4] at hr; exact hr
        · rw [if_neg h2] at hr; cases hr

theorem shapes_append (A : List (Text × Nat)) (v w : List EvData) :
    shapes A (v ++ w) = (shapes A v).bind fun a => (shapes A w).map fun b => a ++ b := by
  induction v with
  | nil => simp [shapes]
  | cons e v ih =>
    simp only [List.cons_append, shapes, ih]
    cases shapes A v with
    | none => rfl
    | some a =>
      cases shapes A w with
      | none => cases e <;> simp <;> cases A.find? _ <;> rfl
      | some b => cases e <;> simp <;> cases A.find? _ <;> rfl

theorem shapes_append_some {A : List (Text × Nat)} {v w : List EvData} {a b : List Shape} (h1 : shapes A v = some a)
    (h2 : shapes A w = some b) : shapes A (v ++ w) = some (a ++ b) := by
  rw [shapes_append, h1, h2]; rfl

theorem find_functional {A : List (Text × Nat)} (hf : Functional A) {a : Text} {i : Nat} (h : (a, i) ∈ A) :
    ∃ p, A.find? (fun p => p.1 == a) = some p ∧ p.2 = i := by
  cases hx : A.find? (fun p => p.1 == a) with
  | none =>
    rw [List.find?_eq_none] at hx
    exact absurd (by simp) (hx _ h)
  | some p =>
    have h1 := List.find?_some hx
    have h2 := List.mem_of_find?_eq_some hx
    simp only [beq_iff_eq] at h1
    refine ⟨p, rfl, hf a _ _ ?_ h⟩
    rw [← h1]; exact h2

/-- Read the nodes of a representation, then the rest. -/
theorem rep_read {s A n w ids A' ns} (h : Rep s A n w ids A' ns) (pre post : List Node) (hpre : pre.length = n)
    (B : List (Text × Nat)) (hB : Functional B) (hA' : ∀ p ∈ A', p ∈ B) (hpos : ∀ p ∈ A, 0 < p.2 ∧ p.2 ≤ n) :
    ∃ sh, shapes B (w.map Event.data) = some sh ∧ ∀ (is : List Nat) (f : Nat) (r : List Shape) (m : Nat),
      readBack (pre ++ ns ++ post) f (n + ns.length) is = some (r, m) →
      ∃ g, readBack (pre ++ ns ++ post) g n (ids ++ is) = some (sh ++ r, m) := by
  have sub : ∀ {s A n w ids A' ns}, Rep s A n w ids A' ns → ∀ p ∈ A, p ∈ A' := by
    intro s A n w ids A' ns h p hp
    rw [(rep_bindings h).1]; exact List.mem_append_left _ hp
  have coll : ∀ (nodes : List Node) (n : Nat) (nd : Node) (cs is : List Nat) (f1 f2 : Nat) (c r : List Shape) (n1 m : Nat)
      (S E : Shape), nodes[n]? = some nd →
      ((∃ st, nd.data = .sequence cs st ∧ S = .seqStart nd.tag st ∧ E = .seqEnd) ∨
       (∃ ps st, nd.data = .mapping ps st ∧ cs = ps.flatMap (fun p => [p.1, p.2]) ∧ S = .mapStart nd.tag st ∧ E = .mapEnd)) →
      readBack nodes f1 (n + 1) cs = some (c, n1) → readBack nodes f2 n1 is = some (r, m) →
      readBack nodes (max f1 f2 + 1) n ((n + 1) :: is) = some (S :: c ++ E :: r, m) := by
    intro nodes n nd cs is f1 f2 c r n1 m S E hn hor h1 h2
    have h1 := readBack_mono nodes (Nat.le_max_left f1 f2) h1
    have h2 := readBack_mono nodes (Nat.le_max_right f1 f2) h2
    simp only [readBack]
    rw [if_neg (by omega), if_pos trivial, hn]
    rcases hor with ⟨st, hd, rfl, rfl⟩ | ⟨ps, st, hd, rfl, rfl, rfl⟩
    · simp only [hd, h1, h2]
    · simp only [hd, h1, h2]
  induction h generalizing pre post with
  | @alias A n e a i he hm =>
    obtain ⟨p, hp1, hp2⟩ := find_functional hB (hA' _ hm)
    refine ⟨[.alias i], by simp [shapes, he, hp1, hp2], ?_⟩
    intro is f r m hr
    refine ⟨f + 1, ?_⟩
    simp only [List.length_nil, Nat.add_zero] at hr
    simp only [List.singleton_append, readBack]
    rw [if_pos (hpos _ hm), hr]
  | @scalar A n e a t v p q s he hu =>
    refine ⟨[.scalar (nodeTag strTag t) v s], by simp [shapes, he], ?_⟩
    intro is f r m hr
    refine ⟨f + 1, ?_⟩
    simp only [List.length_singleton] at hr
    simp only [List.singleton_append, readBack]
    rw [if_neg (by omega), if_pos trivial]
    simp only [List.append_assoc, List.singleton_append]
    rw [List.getElem?_append_right (by omega)]
    simp only [hpre, Nat.sub_self, List.getElem?_cons_zero]
    simp only [List.append_assoc, List.singleton_append] at hr
    rw [hr]
  | @seq A n e e' a t i s w items A' ns he he' hu hw ih =>
    have hpos' : ∀ p ∈ bindAnchor A a (n + 1), 0 < p.2 ∧ p.2 ≤ n + 1 := by
      intro p hp
      cases a with
      | none => have := hpos p hp; omega
      | some x =>
        simp only [bindAnchor, List.mem_append, List.mem_singleton] at hp
        rcases hp with hp | rfl
        · have := hpos p hp; omega
        · simp
    obtain ⟨sh, hs1, hs2⟩ := ih (pre ++ [{ tag := nodeTag seqTag t, data := .sequence items s, start := e.start, stop := e'.stop }]) post (by simp [hpre]) hA' hpos'
    refine ⟨.seqStart (nodeTag seqTag t) s :: sh ++ [.seqEnd], ?_, ?_⟩
    · have h1 : shapes B [EvData.sequenceEnd] = some [.seqEnd] := rfl
      have h2 := shapes_append_some hs1 h1
      simp only [List.map_cons, List.map_append, List.cons_append, List.map_nil, he, he', shapes]
      rw [h2]
    · intro is f r m hr
      obtain ⟨g, hg⟩ := hs2 [] 0 [] (n + 1 + ns.length) (by simp [readBack])
      rw [List.append_assoc pre, List.singleton_append] at hg
      rw [List.append_nil, List.append_nil] at hg
      have := coll _ n _ items is g f sh r _ m _ _ (by simp [← hpre]; rfl) (.inl ⟨s, rfl, rfl, rfl⟩) hg
        (by simp only [List.length_cons] at hr; rw [show n + 1 + ns.length = n + (ns.length + 1) by omega]; exact hr)
      exact ⟨_, by simpa using this⟩
  | @map A n e e' a t i s w ids pairs A' ns he he' hu hw hp ih =>
    have hpos' : ∀ p ∈ bindAnchor A a (n + 1), 0 < p.2 ∧ p.2 ≤ n + 1 := by
      intro p hp
      cases a with
      | none => have := hpos p hp; omega
      | some x =>
        simp only [bindAnchor, List.mem_append, List.mem_singleton] at hp
        rcases hp with hp | rfl
        · have := hpos p hp; omega
        · simp
    obtain ⟨sh, hs1, hs2⟩ := ih (pre ++ [{ tag := nodeTag mapTag t, data := .mapping pairs s, start := e.start, stop := e'.stop }]) post (by simp [hpre]) hA' hpos'
    refine ⟨.mapStart (nodeTag mapTag t) s :: sh ++ [.mapEnd], ?_, ?_⟩
    · have h1 : shapes B [EvData.mappingEnd] = some [.mapEnd] := rfl
      have h2 := shapes_append_some hs1 h1
      simp only [List.map_cons, List.map_append, List.cons_append, List.map_nil, he, he', shapes]
      rw [h2]
    · intro is f r m hr
      obtain ⟨g, hg⟩ := hs2 [] 0 [] (n + 1 + ns.length) (by simp [readBack])
      rw [List.append_assoc pre, List.singleton_append] at hg
      rw [List.append_nil, List.append_nil] at hg
      have := coll _ n _ ids is g f sh r _ m _ _ (by simp [← hpre]; rfl) (.inr ⟨pairs, s, rfl, hp, rfl, rfl⟩) hg
        (by simp only [List.length_cons] at hr; rw [show n + 1 + ns.length = n + (ns.length + 1) by omega]; exact hr)
      exact ⟨_, by simpa using this⟩
  | nodesNil => exact ⟨[], rfl, fun is f r m hr => ⟨f, by simpa using hr⟩⟩
  | @nodesCons A n v is A1 ns w js A2 ms h1 h2 ih1 ih2 =>
    obtain ⟨s1, e1, r1⟩ := ih1 pre (ms ++ post) hpre (fun p hp => hA' p (sub h2 p hp)) hpos
    obtain ⟨s2, e2, r2⟩ := ih2 (pre ++ ns) post (by simp [hpre]) hA' (rep_ids h1 hpos).2.1
    refine ⟨s1 ++ s2, by rw [List.map_append]; exact shapes_append_some e1 e2, ?_⟩
    intro ks f r m hr
    simp only [List.append_assoc, List.length_append] at hr r1 r2 ⊢
    rw [← Nat.add_assoc] at hr
    obtain ⟨g, hg⟩ := r2 ks f r m hr
    exact r1 _ _ _ _ hg
  | pairsNil => exact ⟨[], rfl, fun is f r m hr => ⟨f, by simpa using hr⟩⟩
  | @pairsCons A n u ks A1 ns v vs A2 ms w js A3 os h1 h2 h3 ih1 ih2 ih3 =>
    have p1 := (rep_ids h1 hpos).2.1
    have p2 := (rep_ids h2 p1).2.1
    obtain ⟨s1, e1, r1⟩ := ih1 pre (ms ++ os ++ post) hpre (fun p hp => hA' p (sub h3 p (sub h2 p hp))) hpos
    obtain ⟨s2, e2, r2⟩ := ih2 (pre ++ ns) (os ++ post) (by simp [hpre]) (fun p hp => hA' p (sub h3 p hp)) p1
    obtain ⟨s3, e3, r3⟩ := ih3 (pre ++ ns ++ ms) post (by simp [hpre, Nat.add_assoc]) hA' p2
    refine ⟨s1 ++ (s2 ++ s3), by
      rw [List.map_append, List.map_append]; exact shapes_append_some e1 (shapes_append_some e2 e3), ?_⟩
    intro is f r m hr
    simp only [List.append_assoc, List.length_append] at hr r1 r2 r3 ⊢
    rw [← Nat.add_assoc, ← Nat.add_assoc] at hr
    obtain ⟨g, hg⟩ := r3 is f r m hr
    obtain ⟨g', hg'⟩ := r2 _ _ _ _ hg
    exact r1 _ _ _ _ hg'

/-! ### Faults -/

/-- What the loader remembers about anchors. -/
def seenOf (as : List AliasData) : List (Text × Mark) := as.map fun d => (d.anchor, d.mark)

theorem find_seen (as : List AliasData) (a : Text) :
    (seenOf as).find? (fun p => p.1 == a) = (as.find? (fun d => d.anchor == a)).map fun d => (d.anchor, d.mark) := by
  unfold seenOf
  rw [List.find?_map]; rfl

/-- Mapping nodes of open collections never overflow etc.: adding to a collection cannot fail without limits. -/
theorem addChild_allRoom {i : Nat} {nd : Node} (h : nd.data.isSeq = true ∨ nd.data.isMap = true) :
    ∃ nd', addChild allRoom i nd = .ok nd' := by
  unfold addChild
  cases hd : nd.data with
  | scalar => rw [hd] at h; rcases h with h | h <;> cases h
  | sequence items st => exact ⟨_, rfl⟩
  | mapping ps st =>
    simp only [addToPairs, allRoom, if_true]
    split
    next heq => exact ⟨_, rfl⟩
    next heq =>
      split at heq
      · split at heq <;> cases heq
      · cases heq

theorem nodeAdd_allRoom {i : Nat} {s : CState} {f g : Frame} {K : List Frame} (h : CRel s.nodes s.ctx (f :: K))
    (hg : f.advance = some g) : ∃ s', nodeAdd allRoom i s = .ok s' := by
  have h' := nodeAdd_rel (room := allRoom) (i := i) h hg
  unfold nodeAdd at h' ⊢
  generalize hc : s.ctx = ctx at h h'
  cases h with
  | root => exact ⟨_, rfl⟩
  | seq h1 h2 h3 =>
    simp only [h1]
    obtain ⟨nd', hnd⟩ := addChild_allRoom (i := i) (.inl h2)
    rw [hnd]; exact ⟨_, rfl⟩
  | map h0 h1 h2 h3 =>
    simp only [h1]
    obtain ⟨nd', hnd⟩ := addChild_allRoom (i := i) (.inr h2)
    rw [hnd]; exact ⟨_, rfl⟩

theorem addNode_fault {nd : Node} {a : Option Text} {b : Bool} {s : CState} {f g : Frame} {K : List Frame}
    (h : CRel s.nodes s.ctx (f :: K)) (hg : f.advance = some g) :
    match a.bind fun a => (seenOf s.aliases).find? (fun p => p.1 == a) with
    | some p => addNode allRoom nd a b s =
        .error (.composer (some "found duplicate anchor; first occurrence") p.2 "second occurrence" nd.start)
    | none => ∃ s', addNode allRoom nd a b s = .ok s' ∧
        seenOf s'.aliases = (match a with | none => seenOf s.aliases | some a => seenOf s.aliases ++ [(a, nd.start)]) := by
  have key : ∀ as : List AliasData, ∃ s', nodeAdd allRoom (s.nodes.length + 1) { s with nodes := s.nodes ++ [nd], aliases := as } = .ok s' ∧
      s'.aliases = as := by
    intro as
    obtain ⟨s', hs'⟩ := nodeAdd_allRoom (i := s.nodes.length + 1) (s := { s with nodes := s.nodes ++ [nd], aliases := as })
      (h.keeps (Keeps.append _ _)) hg
    exact ⟨s', hs', (nodeAdd_ok hs').2.1⟩
  cases a with
  | none =>
    simp only [Option.bind_none]
    obtain ⟨s', h1, h2⟩ := key s.aliases
    simp only [addNode, registerAnchor]
    simp only [show ∀ k, allRoom k = true from fun _ => rfl, if_true, h1]
    cases b
    · exact ⟨s', rfl, by rw [h2]⟩
    · exact ⟨_, rfl, by simp only [h2]⟩
  | some a =>
    simp only [Option.bind_some, find_seen]
    cases hf : s.aliases.find? (fun d => d.anchor == a) with
    | some d =>
      simp only [Option.map_some, addNode, registerAnchor, hf]
      simp only [show ∀ k, allRoom k = true from fun _ => rfl, if_true]
    | none =>
      simp only [Option.map_none, addNode, registerAnchor, hf]
      obtain ⟨s', h1, h2⟩ := key (s.aliases ++ [{ anchor := a, index := s.nodes.length + 1, mark := nd.start }])
      simp only [show ∀ k, allRoom k = true from fun _ => rfl, if_true, h1]
      cases b
      · exact ⟨s', rfl, by rw [h2]; simp [seenOf]⟩
      · exact ⟨_, rfl, by simp only [h2]; simp [seenOf]⟩

/-- Composing the events of one document fails exactly by the first fault with anchors. -/
theorem compose_fault (w : List Event) (s : CState) (fs gs : List Frame) (hr : CRel s.nodes s.ctx fs)
    (hw : (Cfg.doc fs).run (w.map Event.data) = some (.doc gs)) (hne : ∀ e ∈ w, ∀ b, e.data ≠ .documentEnd b) :
    match anchorFault (seenOf s.aliases) w with
    | some e => composeAll allRoom w s = .error e
    | none => ∃ s', composeAll allRoom w s = .ok s' ∧ CRel s'.nodes s'.ctx gs := by
  induction w generalizing s fs with
  | nil =>
    simp only [List.map_nil, Cfg.run, Option.some.injEq, Cfg.doc.injEq] at hw
    subst hw
    exact ⟨s, rfl, hr⟩
  | cons e w ih =>
    simp only [List.map_cons, Cfg.run] at hw
    cases hstep : (Cfg.doc fs).step e.data with
    | none => rw [hstep] at hw; cases hw
    | some c =>
      rw [hstep] at hw
      simp only at hw
      have hc : ∃ fs', c = .doc fs' := by
        cases fs with
        | nil => cases hd : e.data <;> rw [hd] at hstep <;> cases hstep
        | cons f K =>
          cases hd : e.data <;> rw [hd] at hstep <;>
            first
            | (simp only [Cfg.step, Option.map_eq_some_iff] at hstep; obtain ⟨g, _, rfl⟩ := hstep; exact ⟨_, rfl⟩)
            | (exact absurd hd (hne e (.head _) _))
            | (cases f <;> cases hstep <;> exact ⟨_, rfl⟩)
      obtain ⟨fs', rfl⟩ := hc
      have hrel := composeEvent_rel (room := allRoom) hr hstep
      have cont : ∀ s', composeEvent allRoom e s = .ok s' →
          match anchorFault (seenOf s'.aliases) w with
          | some err => composeAll allRoom (e :: w) s = .error err
          | none => ∃ s', composeAll allRoom (e :: w) s = .ok s' ∧ CRel s'.nodes s'.ctx gs := by
        intro s' hs'
        simp only [composeAll, hs']
        exact ih s' fs' (hrel.2 s' hs') hw (fun x hx => hne x (.tail _ hx))
      have same : ∀ s', composeEvent allRoom e s = .ok s' → s'.aliases = s.aliases →
          anchorFault (seenOf s.aliases) (e :: w) = anchorFault (seenOf s.aliases) w →
          match anchorFault (seenOf s.aliases) (e :: w) with
          | some err => composeAll allRoom (e :: w) s = .error err
          | none => ∃ s', composeAll allRoom (e :: w) s = .ok s' ∧ CRel s'.nodes s'.ctx gs := by
        intro s' h1 h2 h3
        have := cont s' h1
        rw [h2] at this
        rw [h3]; exact this
      have start : ∀ (nd : Node) (a : Option Text) (b : Bool) (f g : Frame) (K : List Frame), fs = f :: K → f.advance = some g →
          nd.start = e.start → composeEvent allRoom e s = addNode allRoom nd a b s → anchorOf e.data = a → startsNode e.data = true →
          match anchorFault (seenOf s.aliases) (e :: w) with
          | some err => composeAll allRoom (e :: w) s = .error err
          | none => ∃ s', composeAll allRoom (e :: w) s = .ok s' ∧ CRel s'.nodes s'.ctx gs := by
        intro nd a b f g K hfs hg hst hev ha hsn
        subst hfs
        have hfault := addNode_fault (nd := nd) (a := a) (b := b) hr hg
        have hunf : anchorFault (seenOf s.aliases) (e :: w) =
            match (generalizing := false) a with
            | none => anchorFault (seenOf s.aliases) w
            | some a =>
              match (seenOf s.aliases).find? (fun p => p.1 == a) with
              | some p => some (.composer (some "found duplicate anchor; first occurrence") p.2 "second occurrence" e.start)
              | none => anchorFault (seenOf s.aliases ++ [(a, e.start)]) w := by
          rw [← ha]
          cases hd : e.data <;> rw [hd] at hsn <;> first | (cases hsn; done) | (simp only [anchorFault, hd, anchorOf]; rfl)
        rw [hunf]
        cases a with
        | none =>
          simp only [Option.bind_none] at hfault
          obtain ⟨s', h1, h2⟩ := hfault
          have := cont s' (by rw [hev]; exact h1)
          rw [h2] at this
          exact this
        | some a =>
          simp only [Option.bind_some] at hfault
          simp only
          cases hfd : (seenOf s.aliases).find? (fun p => p.1 == a) with
          | some p =>
            rw [hfd] at hfault
            simp only at hfault ⊢
            simp only [composeAll, hev, hfault, hst]
          | none =>
            rw [hfd] at hfault
            simp only at hfault ⊢
            obtain ⟨s', h1, h2⟩ := hfault
            have := cont s' (by rw [hev]; exact h1)
            rw [h2, hst] at this
            exact this
      cases fs with
      | nil => cases hd : e.data <;> rw [hd] at hstep <;> cases hstep
      | cons f K =>
      cases hd : e.data with
      | streamStart => rw [hd] at hstep; cases f <;> cases hstep
      | streamEnd => rw [hd] at hstep; cases f <;> cases hstep
      | documentStart => rw [hd] at hstep; cases f <;> cases hstep
      | documentEnd b => exact absurd hd (hne e (.head _) b)
      | scalar a t v p q st =>
        rw [hd] at hstep
        simp only [Cfg.step, Option.map_eq_some_iff] at hstep
        obtain ⟨g, hg, _⟩ := hstep
        exact start { tag := tagOr strTag t, data := .scalar v st, start := e.start, stop := e.stop } a false f g K rfl hg (by rfl) (by simp only [composeEvent, hd]) (by rw [hd]; rfl) (by rw [hd]; rfl)
      | sequenceStart a t i st =>
        rw [hd] at hstep
        simp only [Cfg.step, Option.map_eq_some_iff] at hstep
        obtain ⟨g, hg, _⟩ := hstep
        exact start { tag := tagOr seqTag t, data := .sequence [] st, start := e.start, stop := e.stop } a true f g K rfl hg (by rfl) (by simp only [composeEvent, hd]) (by rw [hd]; rfl) (by rw [hd]; rfl)
      | mappingStart a t i st =>
        rw [hd] at hstep
        simp only [Cfg.step, Option.map_eq_some_iff] at hstep
        obtain ⟨g, hg, _⟩ := hstep
        exact start { tag := tagOr mapTag t, data := .mapping [] st, start := e.start, stop := e.stop } a true f g K rfl hg (by rfl) (by simp only [composeEvent, hd]) (by rw [hd]; rfl) (by rw [hd]; rfl)
      | alias a =>
        rw [hd] at hstep
        simp only [Cfg.step, Option.map_eq_some_iff] at hstep
        obtain ⟨g, hg, _⟩ := hstep
        have hany : (seenOf s.aliases).any (fun p => p.1 == a) = (s.aliases.find? (fun d => d.anchor == a)).isSome := by
          rw [Bool.eq_iff_iff, List.any_eq_true, ← List.find?_isSome, find_seen]; cases s.aliases.find? _ <;> simp
        have hev : composeEvent allRoom e s = loadAlias allRoom a e.start s := by simp only [composeEvent, hd]
        cases hf : s.aliases.find? (fun d => d.anchor == a) with
        | some d =>
          obtain ⟨s', hs'⟩ := nodeAdd_allRoom (i := d.index) hr hg
          refine same s' (by rw [hev]; simp only [loadAlias, hf]; exact hs') (nodeAdd_ok hs').2.1 ?_
          simp only [anchorFault, hd, hany, hf]
          rfl
        | none =>
          simp only [anchorFault, hd, hany, hf]
          simp only [Option.isSome_none, Bool.false_eq_true, if_false, composeAll, hev, loadAlias, hf]
      | sequenceEnd =>
        rw [hd] at hstep
        cases f <;> try (cases hstep; done)
        have hr' := hr
        generalize hctx : s.ctx = ctx at hr'
        cases hr' with
        | root hor => rcases hor with h | h <;> cases h
        | @seq c cs K nd h1 h2 h3 =>
          refine same { s with nodes := s.nodes.set (c - 1) { nd with stop := e.stop }, ctx := cs }
            (by simp only [composeEvent, hd, closeNode, hctx, h1, h2, if_true]) rfl ?_
          simp only [anchorFault, hd, anchorOf]
        | map h0 => rcases h0 with h | h <;> cases h
      | mappingEnd =>
        rw [hd] at hstep
        cases f <;> try (cases hstep; done)
        have hr' := hr
        generalize hctx : s.ctx = ctx at hr'
        cases hr' with
        | root hor => rcases hor with h | h <;> cases h
        | @map c cs _ nd _ h0 h1 h2 h3 =>
          refine same { s with nodes := s.nodes.set (c - 1) { nd with stop := e.stop }, ctx := cs }
            (by simp only [composeEvent, hd, closeNode, hctx, h1, h2, if_true]) rfl ?_
          simp only [anchorFault, hd, anchorOf]

end LibYaml
